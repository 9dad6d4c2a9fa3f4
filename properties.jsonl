{"id": "C01", "title": "Default padding length", "statement": "With no explicit length, the padded length that ssqueezepy picks for a signal of N samples is a power of two, strictly larger than N and at most 2*sqrt(2)*N, and the left and right pads add up to the difference with left - right in {0, 1}.", "quantifier": "every signal length N >= 1", "why_tests_cant": "N is unbounded; the rule goes through a rounded logarithm, so the interesting lengths (near sqrt(2)*2^k) are infinitely many and sparse.", "anchors": ["ssqueezepy/utils/common.py: p2up, padsignal"]}
{"id": "C02", "title": "Padding keeps the signal and trims back", "statement": "padsignal(x, padtype, padlength) with padlength >= len(x) returns an array of exactly padlength samples from which x is recovered by the slice [n1 : n1+N], for every supported padtype; left - right is in {0,1}.", "quantifier": "every signal, every padtype, every padlength >= N (or the default)", "why_tests_cant": "Unbounded lengths, four parity cases and five schemes; the off-by-one cases are exactly those a fixture misses.", "anchors": ["ssqueezepy/utils/common.py: padsignal", "ssqueezepy/_cwt.py: cwt (unpad)"]}
{"id": "C03", "title": "Padding content is the documented extension", "statement": "Every sample of the padded signal equals the value of the documented infinite extension of x at that position: zero; periodic (wrap); edge value (replicate); whole-sample mirror of period 2N-2 (reflect); half-sample mirror of period 2N (symmetric).", "quantifier": "every signal, position, pad scheme, and pad length", "why_tests_cant": "Positions range over unbounded pads, including pads several times longer than the signal, where the mirror has to be iterated.", "anchors": ["ssqueezepy/utils/common.py: padsignal"]}
{"id": "C04", "title": "trigdiff returns an array aligned with its input", "statement": "trigdiff(A) without rpadded returns, for every row, as many samples as A has, and differentiates exactly every discrete tone of the padded row.", "quantifier": "every array shape and every row length", "why_tests_cant": "The defect depends on how the default trim length is derived, for every N.", "anchors": ["ssqueezepy/utils/common.py: trigdiff"]}
{"id": "C05", "title": "Frames are the documented slices of the input", "statement": "buffer(x, seg_len, n_overlap) returns (L-seg_len)//hop+1 columns and column i holds x[i*hop : i*hop+seg_len]; with modulated=True column i holds the same slice rotated by ifftshift. No read is out of bounds.", "quantifier": "every signal, segment length, overlap < seg_len, column and row", "why_tests_cant": "Sizes are unbounded and odd/even segment lengths take different index arithmetic.", "anchors": ["ssqueezepy/utils/stft_utils.py: buffer, _buffer"]}
{"id": "C06", "title": "Framing is the same on every execution path and schedule", "statement": "The serial loop, the prange loop under any order of its iterations, and the CUDA kernel index map of buffer produce the same array.", "quantifier": "every input and every permutation of the parallel iterations", "why_tests_cant": "Thread schedules are not enumerable by tests.", "anchors": ["ssqueezepy/utils/stft_utils.py: _buffer, _buffer_par, _buffer_gpu"]}
{"id": "C07", "title": "STFT output shape and frame centring", "statement": "stft(x) has n_fft//2+1 rows and (N-1)//hop_len+1 columns, and column j is the DFT of a window whose centre tap multiplies sample x[j*hop_len].", "quantifier": "every N >= 1, n_fft >= 1, hop_len >= 1", "why_tests_cant": "Parity of N and n_fft and the padding split interact; unbounded.", "anchors": ["ssqueezepy/_stft.py: stft", "ssqueezepy/utils/common.py: padsignal"]}
{"id": "C08", "title": "STFT inversion", "statement": "istft(stft(x)) returns x exactly (in exact arithmetic), at every sample where the window-power sum is non-zero, for every window exponent, hop, parity of n_fft, and modulated flag; with NOLA satisfied, everywhere.", "quantifier": "every real signal, window, n_fft >= 3, hop_len <= n_fft, win_exp >= 0, pad content", "why_tests_cant": "Continuous inputs and unbounded sizes.", "anchors": ["ssqueezepy/_stft.py: stft, istft", "ssqueezepy/utils/stft_utils.py: unbuffer, window_norm"]}
{"id": "C09", "title": "STFT inversion for the shortest FFT lengths", "statement": "istft(stft(x, n_fft=n), n_fft=n) returns a signal of len(x) samples for every admissible n_fft, including 1 and 2.", "quantifier": "every signal, n_fft in {1, 2}", "why_tests_cant": "A one-point unpad slice; fixtures use n_fft of tens or hundreds.", "anchors": ["ssqueezepy/_stft.py: istft"]}
{"id": "C10", "title": "Window preparation", "statement": "get_window(window, win_len, n_fft) returns n_fft taps: the given taps centred, zeros around them; win_len > n_fft is rejected.", "quantifier": "every window array, win_len <= n_fft", "why_tests_cant": "Unbounded lengths; the failing case is a window whose length differs from win_len.", "anchors": ["ssqueezepy/_stft.py: get_window"]}
{"id": "C11", "title": "A window accepted by stft is accepted by istft", "statement": "If stft(x, window=w, n_fft=n) succeeds, then istft of the result with the same window and n_fft succeeds.", "quantifier": "every window array shorter than n_fft", "why_tests_cant": "A cross-call contract over all pairs of lengths.", "anchors": ["ssqueezepy/_stft.py: stft, istft, get_window", "ssqueezepy/utils/stft_utils.py: unbuffer"]}
{"id": "C12", "title": "Modulated and unmodulated STFT differ by a known phase", "statement": "stft(modulated=True)[k, j] = exp(2*pi*i*k*(n_fft//2)/n_fft) * stft(modulated=False)[k, j]; in particular their magnitudes agree.", "quantifier": "every signal, window, n_fft, hop, row, column", "why_tests_cant": "Universal identity over complex data.", "anchors": ["ssqueezepy/_stft.py: stft", "ssqueezepy/utils/stft_utils.py: buffer"]}
{"id": "C13", "title": "STFT derivative is expressed in physical units", "statement": "The derivative array returned by stft(derivative=True, fs=fs) scales linearly with fs, whatever the modulated flag.", "quantifier": "every signal, fs, modulated flag", "why_tests_cant": "Relation between two calls with different fs.", "anchors": ["ssqueezepy/_stft.py: stft"]}
{"id": "C14", "title": "Synchrosqueezed STFT inversion", "statement": "issq_stft(ssq_stft(x)) returns x (up to the documented endpoint terms) independent of the sampling frequency.", "quantifier": "every signal, window, n_fft, fs with nothing below threshold", "why_tests_cant": "Continuous data; error proportional to fs is invisible at fs=1.", "anchors": ["ssqueezepy/_ssq_stft.py: ssq_stft, issq_stft", "ssqueezepy/ssqueezing.py: ssqueeze"]}
{"id": "C15", "title": "Inverse synchrosqueezed STFT rejects unsupported modes", "statement": "issq_stft raises ValueError when modulated is false or hop_len is not 1, and for no other value of these two arguments.", "quantifier": "all argument combinations", "why_tests_cant": "Decision logic over all arguments, including the component-inversion arguments.", "anchors": ["ssqueezepy/_ssq_stft.py: issq_stft", "ssqueezepy/_ssq_cwt.py: _process_component_inversion_args"]}
{"id": "C16", "title": "Reassignment conserves each column", "statement": "For every column j of the squeezed transform, the sum over rows equals the sum over kept cells i of Wx[i,j]*const[i]; nothing is lost, duplicated, or moved in time.", "quantifier": "every Wx, phase transform w, linear / log / two-segment log frequency grid, flipud flag, and const", "why_tests_cant": "Continuous data; any single mis-indexed cell breaks it.", "anchors": ["ssqueezepy/algos.py: indexed_sum_onfly, _indexed_sum_log, _indexed_sum_lin, _indexed_sum_log_piecewise", "ssqueezepy/ssqueezing.py: ssqueeze"]}
{"id": "C17", "title": "Reassignment never writes outside the output", "statement": "For every phase value that passes the filter (any finite non-negative number, including ones outside the frequency grid), the target row lies in [0, n_rows).", "quantifier": "every finite w >= 0; every linear grid, every log grid without a detected transition, every two-segment log grid", "why_tests_cant": "Compiled kernels have no bounds checks, so a single bad value corrupts memory silently.", "anchors": ["ssqueezepy/algos.py: _indexed_sum_log, _indexed_sum_log_piecewise, _indexed_sum_lin, _ssq_cwt_*, _ssq_stft"]}
{"id": "C18", "title": "Energy goes to the nearest frequency (linear grid)", "statement": "On a uniformly spaced frequency grid, every cell is moved to a row whose frequency is nearest to the cell's phase value (ties to the even index); values outside the grid go to the end rows.", "quantifier": "every w, every uniform grid of at least two points", "why_tests_cant": "Real-valued thresholds half-way between bins.", "anchors": ["ssqueezepy/algos.py: _indexed_sum_lin, _ssq_cwt_lin, _ssq_stft, find_closest_lin"]}
{"id": "C19", "title": "Energy goes to the nearest frequency (log grid)", "statement": "On a geometric frequency grid every cell is moved to a row nearest in log-frequency.", "quantifier": "every positive w and geometric grid", "why_tests_cant": "As above, in the log domain.", "anchors": ["ssqueezepy/algos.py: _indexed_sum_log, _ssq_cwt_log, find_closest_log"]}
{"id": "C20", "title": "Piecewise log grid", "statement": "On a two-segment log grid, row indices are in range, non-decreasing in w, and nearest in log-frequency among all rows.", "quantifier": "every positive w and two-segment grid", "why_tests_cant": "The seam between the segments is a measure-zero set of inputs.", "anchors": ["ssqueezepy/algos.py: _indexed_sum_log_piecewise, _get_params_find_closest_log"]}
{"id": "C21", "title": "Reassignment is deterministic under any thread schedule", "statement": "The parallel synchrosqueezing kernels return bit-for-bit the serial result for every interleaving of column iterations.", "quantifier": "every input, every permutation of columns, an arbitrary (non-associative, non-commutative) addition", "why_tests_cant": "Schedules cannot be enumerated; floating-point addition is not associative.", "anchors": ["ssqueezepy/algos.py: indexed_sum, _indexed_sum_*_par, _ssq_cwt_*_par, _ssq_stft_par"]}
{"id": "C22", "title": "flipud reverses the rows and nothing else", "statement": "Squeezing with flipud=True gives the row-reversal of squeezing with flipud=False.", "quantifier": "every input", "why_tests_cant": "Universal relation between two executions.", "anchors": ["ssqueezepy/algos.py: indexed_sum_onfly, ssqueeze_fast"]}
{"id": "C23", "title": "The one-pass and two-pass squeezing agree", "statement": "ssq_cwt / ssq_stft return the same Tx whether get_w is True (phase computed first, then summed) or False (fused kernel).", "quantifier": "every Wx, dWx, gamma, grid", "why_tests_cant": "The disagreement needs |Wx| exactly equal to the threshold.", "anchors": ["ssqueezepy/algos.py: phase_cwt_cpu, _ssq_cwt_lin, indexed_sum_onfly", "ssqueezepy/ssqueezing.py: ssqueeze"]}
{"id": "C24", "title": "Cells below threshold contribute nothing", "statement": "A cell with |Wx| < gamma has no influence on Tx: it gets phase infinity and is skipped.", "quantifier": "every Wx, dWx, gamma > 0", "why_tests_cant": "Continuous data.", "anchors": ["ssqueezepy/algos.py: phase_cwt_cpu, phase_stft_cpu, _ssq_cwt_*"]}
{"id": "C25", "title": "Squeezing is linear in the transform for a fixed phase", "statement": "With the phase transform held fixed, Tx(a*W1 + b*W2) = a*Tx(W1) + b*Tx(W2), and Tx(0)=0.", "quantifier": "every pair of transforms, scalars and phase", "why_tests_cant": "Universal algebraic law.", "anchors": ["ssqueezepy/algos.py: indexed_sum_onfly"]}
{"id": "C26", "title": "Tx does not depend on get_w for any squeezing option", "statement": "For squeezing in {'sum','abs','lebesgue', function}, the returned Tx is the same with get_w=True and get_w=False.", "quantifier": "every input and squeezing option", "why_tests_cant": "Relation between two executions with different flags.", "anchors": ["ssqueezepy/ssqueezing.py: ssqueeze", "ssqueezepy/_ssq_cwt.py: ssq_cwt"]}
{"id": "C27", "title": "Returned frequencies label the rows of Tx", "statement": "Row i of the returned Tx holds the energy whose phase is nearest to the i-th returned frequency.", "quantifier": "every input, flipud, transform", "why_tests_cant": "Two outputs have to be consistent for all inputs.", "anchors": ["ssqueezepy/ssqueezing.py: ssqueeze"]}
{"id": "C28", "title": "Generated synchrosqueezing frequencies", "statement": "With a log or linear scheme, the generated frequency grid has one entry per scale, starts at the minimum and ends at the maximum of the range, is strictly increasing, and is uniform in the respective domain.", "quantifier": "every range 0 < fm < fM and number of scales >= 2", "why_tests_cant": "Real parameters, unbounded sizes.", "anchors": ["ssqueezepy/ssqueezing.py: _compute_associated_frequencies, _ssq_freqrange, _exp_fm"]}
{"id": "C29", "title": "Squeezing argument validation", "statement": "The argument checker accepts exactly the documented values of squeezing, maprange, difftype, difforder and transform, raises otherwise, and fills difforder with 4 for numeric differentiation; whatever it accepts, the downstream range computation handles.", "quantifier": "all argument combinations", "why_tests_cant": "Combinatorial decision logic plus a contract with a later stage.", "anchors": ["ssqueezepy/ssqueezing.py: _check_ssqueezing_args, _ssq_freqrange"]}
{"id": "C30", "title": "find_closest returns a nearest grid index", "statement": "find_closest (sorted-search method) returns for each element an index of v whose value is at minimal distance, ties to the smaller value; equal to the brute-force argmin up to ties, for unsorted v as well.", "quantifier": "every matrix, every non-empty v", "why_tests_cant": "Unbounded data; ties.", "anchors": ["ssqueezepy/algos.py: find_closest_smart, find_closest_brute"]}
{"id": "C31", "title": "Uniform-grid search indexes the grid it was given", "statement": "find_closest with a linear grid returns an index into the grid, for a matrix with any number of rows.", "quantifier": "every matrix height and grid length", "why_tests_cant": "Depends on two independent sizes that usually coincide.", "anchors": ["ssqueezepy/algos.py: find_closest_lin"]}
{"id": "C32", "title": "Ridge extraction returns a minimum-penalty path", "statement": "For each ridge, the returned row sequence minimises the sum of -log-energy costs plus the frequency-jump penalty among all row sequences ending at the same final row, and every index is a valid row.", "quantifier": "every energy matrix, penalty matrix, number of rows and time steps", "why_tests_cant": "Exponentially many paths, unbounded sizes.", "anchors": ["ssqueezepy/ridge_extraction.py: extract_ridges, _fw_ridge_tracking, _bw_ridge_tracking"]}
{"id": "C33", "title": "Ridge start uses the best final row", "statement": "The backward pass starts from a row of minimal accumulated cost at the last time step.", "quantifier": "every accumulated-cost matrix", "why_tests_cant": "Wrong only for tall matrices.", "anchors": ["ssqueezepy/ridge_extraction.py: extract_ridges"]}
{"id": "C34", "title": "Successive ridges avoid each other", "statement": "After a ridge is extracted, the energy in rows within bw of it is zeroed at every time step, so the next ridge cannot reuse it: wherever a later ridge has energy, it is at least bw rows away from every earlier one.", "quantifier": "every ridge, bw, matrix", "why_tests_cant": "Edge rows only.", "anchors": ["ssqueezepy/ridge_extraction.py: extract_ridges"]}
{"id": "C35", "title": "Parallel ridge backtracking is schedule independent", "statement": "The prange variant of the ridge backtracking returns the serial result for every interleaving of its iterations.", "quantifier": "every schedule", "why_tests_cant": "Data race on a scalar.", "anchors": ["ssqueezepy/ridge_extraction.py: _bw_ridge_tracking"]}
{"id": "C36", "title": "CWT is linear", "statement": "cwt(a*x + b*y) = a*cwt(x) + b*cwt(y) for fixed scales and wavelet, for every pad type.", "quantifier": "every pair of signals, scalars, scales, wavelet", "why_tests_cant": "Universal law.", "anchors": ["ssqueezepy/_cwt.py: cwt", "ssqueezepy/utils/common.py: padsignal"]}
{"id": "C37", "title": "CWT rows are circular convolutions, computed identically one by one or all at once", "statement": "Row i of cwt is ifft(psih(scale_i * xi) * fft(x_padded)), the Nyquist bin of even lengths halved (and multiplied by sqrt(scale_i) for the L2 norm); the vectorised and the looped code path agree; shifting the (unpadded, periodic) input circularly shifts every row.", "quantifier": "every signal, wavelet, scales", "why_tests_cant": "Universal law.", "anchors": ["ssqueezepy/_cwt.py: cwt"]}
{"id": "C38", "title": "CWT derivative is the exact derivative", "statement": "The derivative output of cwt is ifft(1j*xi*fs * psih * fft(x)): on every discrete tone of frequency k it equals 2*pi*i*k*fs/N times the CWT.", "quantifier": "every tone below Nyquist, every wavelet and scale", "why_tests_cant": "Universal law.", "anchors": ["ssqueezepy/_cwt.py: cwt"]}
{"id": "C39", "title": "A pure tone is squeezed into one row at its frequency", "statement": "For a periodic real tone (whole number of periods, no padding) and an analytic wavelet, every CWT cell above threshold has phase transform exactly equal to the tone's physical frequency, and with the 'sum' squeezing every nonzero entry of Tx lies in the single row whose returned frequency is nearest to it.", "quantifier": "every tone frequency, wavelet, set of scales, fs, grid", "why_tests_cant": "Quantifies over all tones and wavelets.", "anchors": ["ssqueezepy/_ssq_cwt.py: ssq_cwt, phase_cwt", "ssqueezepy/algos.py: phase_cwt_cpu"]}
{"id": "C40", "title": "One-integral inverse CWT", "statement": "icwt(cwt(x)) is x filtered by the sum of the sampled wavelets divided by the admissibility constant; it equals x exactly when that sum is flat.", "quantifier": "every signal, wavelet, scales", "why_tests_cant": "Universal law.", "anchors": ["ssqueezepy/_cwt.py: icwt, _icwt_1int, _icwt_norm"]}
{"id": "C41", "title": "Inverting the squeezed CWT equals inverting the CWT", "statement": "If no cell is filtered, issq_cwt(ssq_cwt(x)) equals the one-integral icwt(cwt(x)) with the same scales.", "quantifier": "every signal and every phase transform", "why_tests_cant": "Universal law; independent of how energy was reassigned.", "anchors": ["ssqueezepy/_ssq_cwt.py: issq_cwt", "ssqueezepy/_cwt.py: icwt"]}
{"id": "C42", "title": "Inverse CWT adds the signal mean once", "statement": "icwt(Wx, x_mean=m) returns the inversion plus m, for every scale distribution.", "quantifier": "every transform, scales distribution, mean", "why_tests_cant": "Piecewise case recurses.", "anchors": ["ssqueezepy/_cwt.py: icwt"]}
{"id": "C43", "title": "Component inversion splits the full inversion", "statement": "issq_cwt with component curves returns one signal per component plus a residual, and their sum is the full inversion.", "quantifier": "every Tx, curves and widths", "why_tests_cant": "Overlapping bands.", "anchors": ["ssqueezepy/_ssq_cwt.py: issq_cwt, _invert_components, _process_component_inversion_args"]}
{"id": "C44", "title": "Scales generation (log)", "statement": "make_scales with scaletype 'log' returns a strictly increasing geometric sequence of ratio 2^(1/nv) that covers [min_scale, max_scale].", "quantifier": "every 0 < min < max and nv >= 1", "why_tests_cant": "Real parameters.", "anchors": ["ssqueezepy/utils/cwt_utils.py: make_scales"]}
{"id": "C45", "title": "Number of voices is recoverable from scales", "statement": "For any log scales produced by make_scales, the inferred scale type is 'log' and the inferred number of voices is the one used.", "quantifier": "every nv, min, max", "why_tests_cant": "Round-trip over real parameters.", "anchors": ["ssqueezepy/utils/cwt_utils.py: infer_scaletype, nv_from_scales, make_scales"]}
{"id": "C46", "title": "Piecewise-downsampled scales", "statement": "The log-piecewise scales are a strictly increasing subsequence of the log scales, unchanged up to the transition index, with stride d after it, and never lose the transition ordering.", "quantifier": "every scales list, index, stride d >= 1", "why_tests_cant": "Unbounded sizes.", "anchors": ["ssqueezepy/utils/cwt_utils.py: make_scales, logscale_transition_idx"]}
{"id": "C47", "title": "Scales specification string", "statement": "process_scales accepts 'log', 'log-piecewise', 'linear', optionally followed by ':preset', and rejects everything else; a passed array must be positive and 1D; nv must agree with the array.", "quantifier": "every specification string", "why_tests_cant": "String space is infinite.", "anchors": ["ssqueezepy/utils/cwt_utils.py: process_scales"]}
{"id": "C48", "title": "Sampling frequency and time vector", "statement": "_process_fs_and_t: a time vector overrides fs and must be uniform and of the right length; fs<=0 is rejected; dt*fs = 1 always.", "quantifier": "every fs, t, N", "why_tests_cant": "Real-valued inputs.", "anchors": ["ssqueezepy/utils/cwt_utils.py: _process_fs_and_t"]}
{"id": "C49", "title": "Frequency grid", "statement": "_xifn(scale, N)[i] is 2*pi*scale/N times the signed DFT frequency of bin i (non-negative up to N//2, negative after), for even and odd N.", "quantifier": "every scale and N", "why_tests_cant": "Unbounded N, parity.", "anchors": ["ssqueezepy/wavelets.py: _xifn"]}
{"id": "C50", "title": "Shift pair is inverse", "statement": "afftshift and aifftshift are mutually inverse, and aifftshift puts the frequency grid in ascending order.", "quantifier": "every N", "why_tests_cant": "Parity.", "anchors": ["ssqueezepy/wavelets.py: afftshift, aifftshift"]}
{"id": "C51", "title": "Analytic wavelets vanish on negative frequencies", "statement": "gmw of every order is zero for w <= 0, and of order 0 positive beyond; bump is zero exactly where |w - mu| >= .999 s and positive elsewhere; cmhat and hhhat are zero for w <= mu and positive beyond. (Morlet is not analytic: it is nonzero at every negative frequency.)", "quantifier": "every frequency and parameter", "why_tests_cant": "Continuum of frequencies.", "anchors": ["ssqueezepy/wavelets.py: morlet, bump, cmhat, hhhat", "ssqueezepy/_gmw.py: gmw_l1, gmw_l2, gmw_l1_k, gmw_l2_k"]}
{"id": "C52", "title": "GMW peak", "statement": "The bandpass-normalised generalized Morse wavelet attains its maximum 2 exactly at the frequency morsefreq(gamma, beta) and nowhere else.", "quantifier": "every gamma > 0, beta > 0, w", "why_tests_cant": "Continuum of parameters.", "anchors": ["ssqueezepy/_gmw.py: gmw_l1, morsefreq"]}
{"id": "C53", "title": "Order-0 higher-order wavelet is the base wavelet", "statement": "gmw_l1_k and gmw_l2_k with k = 0 coincide with gmw_l1 and gmw_l2; the polynomial constants are those of the generalized Laguerre polynomial.", "quantifier": "every gamma, beta, w, k", "why_tests_cant": "Real parameters, unbounded order.", "anchors": ["ssqueezepy/_gmw.py: gmw_l1_k, gmw_l2_k, _gmw_k_constants, laguerre"]}
{"id": "C54", "title": "Moments and cumulants", "statement": "_moments_to_cumulants maps the derivatives at 0 of a generating function to those of its logarithm (so cumulants of products add), and nCk(n,k) is the binomial coefficient for 0 <= k <= n.", "quantifier": "every moment sequence with M0 > 0", "why_tests_cant": "Unbounded length.", "anchors": ["ssqueezepy/_gmw.py: _moments_to_cumulants", "ssqueezepy/algos.py: nCk"]}
{"id": "C55", "title": "Cached wavelet samples match the current parameters", "statement": "Wavelet.Psih returns the samples for the scales, N and nohalf requested, after any history of calls.", "quantifier": "every sequence of calls", "why_tests_cant": "Histories are unbounded.", "anchors": ["ssqueezepy/wavelets.py: Wavelet.Psih"]}
{"id": "C56", "title": "cwt leaves the wavelet as it found it", "statement": "After cwt returns or raises, wavelet.N is what it was before the call.", "quantifier": "every call outcome including exceptions at any point", "why_tests_cant": "Crash points.", "anchors": ["ssqueezepy/_cwt.py: cwt"]}
{"id": "C57", "title": "FFT object cache returns the right transform", "statement": "With cached FFT objects enabled, every call to fft/ifft/rfft/irfft computes the transform that was asked for, after any history of calls.", "quantifier": "every sequence of calls", "why_tests_cant": "History dependent.", "anchors": ["ssqueezepy/utils/fft_utils.py: FFT.get_fft_object"]}
{"id": "C58", "title": "FFT patience setting", "statement": "Setting patience validates first and then updates patience (and, for a tuple, the planning time limit) atomically; cwt restores the setting it changed.", "quantifier": "every history of settings", "why_tests_cant": "History dependent.", "anchors": ["ssqueezepy/utils/fft_utils.py: FFT.patience", "ssqueezepy/_cwt.py: cwt"]}
{"id": "C59", "title": "Defaults never override the caller", "statement": "gdefaults returns every argument that the caller set unchanged, fills only the None ones that the configuration knows, keeps all keys, and with get_all adds the remaining defaults.", "quantifier": "every configuration and keyword set", "why_tests_cant": "Arbitrary dictionaries.", "anchors": ["ssqueezepy/configs.py: gdefaults"]}
{"id": "C60", "title": "Parallel and GPU switches", "statement": "IS_PARALLEL is False iff SSQ_PARALLEL is '0' or the configuration says 0; USE_GPU is True iff SSQ_GPU is '1' and both libraries are present, and raises if they are missing.", "quantifier": "every environment", "why_tests_cant": "Decision table over arbitrary strings.", "anchors": ["ssqueezepy/configs.py: IS_PARALLEL, USE_GPU"]}
{"id": "C61", "title": "Configuration parser", "statement": "_get_gdefaults maps every 'key=value' line to its module/object section, ignores everything after the END marker and blank lines, and lines after a later duplicate key win.", "quantifier": "every configuration text", "why_tests_cant": "Text space is infinite.", "anchors": ["ssqueezepy/configs.py: _get_gdefaults"]}
{"id": "C62", "title": "CUDA grids cover every element", "statement": "For every array shape the launch grid computed for a kernel covers every element, and the kernels' index guards ignore the surplus threads.", "quantifier": "every shape", "why_tests_cant": "Unbounded shapes.", "anchors": ["ssqueezepy/utils/gpu_utils.py: _get_kernel_params", "ssqueezepy/algos.py: *_gpu kernels"]}
{"id": "C63", "title": "In-place value replacement", "statement": "replace_at_inf / nan / inf_or_nan / under_abs change exactly the selected entries and keep the rest.", "quantifier": "every array and reference", "why_tests_cant": "Arbitrary data.", "anchors": ["ssqueezepy/algos.py: replace_at_inf, replace_at_nan, replace_at_inf_or_nan, replace_under_abs, zero_denormals"]}
{"id": "C64", "title": "Search helpers terminate and return a right answer", "statement": "_min_neglect_idx returns the first index below the threshold (else the last); find_maximum and find_first_occurrence terminate.", "quantifier": "every array / function", "why_tests_cant": "Termination.", "anchors": ["ssqueezepy/algos.py: _min_neglect_idx, find_maximum, find_first_occurrence"]}
{"id": "C65", "title": "Chirp test signals sweep the requested band", "statement": "For lchirp, echirp and hchirp the phase is the exact integral of the instantaneous frequency, which starts at fmin at tmin and ends at fmax at tmax.", "quantifier": "every valid tmin<tmax, fmin, fmax", "why_tests_cant": "Real parameters.", "anchors": ["ssqueezepy/_test_signals.py: _lchirp_fn, _echirp_fn, _echirp_pc_fn, _hchirp_fn"]}
{"id": "C66", "title": "Amplitude modulators stay in range", "statement": "am_sine and am_cosine stay within [amin, amax].", "quantifier": "every parameter and time", "why_tests_cant": "Continuum.", "anchors": ["ssqueezepy/_test_signals.py: am_sine, am_cosine, am_gauss"]}
{"id": "C67", "title": "make_signals returns one entry per requested signal", "statement": "make_signals(list) returns as many signals as requested, in order.", "quantifier": "every request list", "why_tests_cant": "Duplicate names.", "anchors": ["ssqueezepy/_test_signals.py: make_signals, _process_input"]}
{"id": "C68", "title": "scale_to_freq range", "statement": "scale_to_freq returns frequencies in [0, fs/2] for every wavelet, ill-behaved ones included; its internal assertions never fire.", "quantifier": "every wavelet samples and N", "why_tests_cant": "Arbitrary peak positions.", "anchors": ["ssqueezepy/experimental.py: scale_to_freq"]}
{"id": "C69", "title": "Reassignment stays inside the output for any increasing log grid", "statement": "For every strictly increasing positive user-supplied frequency grid with one frequency per row, squeezing on a log scale only writes inside the output.", "quantifier": "every strictly increasing positive grid, every phase", "why_tests_cant": "The failing grids sit inside a floating tolerance; numba does no bounds checking.", "anchors": ["ssqueezepy/algos.py: _indexed_sum_log_piecewise, _get_params_find_closest_log", "ssqueezepy/utils/cwt_utils.py: logscale_transition_idx"]}
{"id": "C70", "title": "Phase transform is the instantaneous frequency", "statement": "In every cell with |W| >= gamma, phase_cwt (resp. phase_stft) returns |Im(dW/W)|/(2 pi) (resp. |Sfs_i - Im(dS/S)/(2 pi)|), which is a finite non-negative number, equals the instantaneous frequency of the cell when dW is the time derivative of W = A exp(i phi), and does not change when W and dW are multiplied by the same non-zero complex number; below gamma it returns inf.", "quantifier": "every pair of complex transforms, threshold, cell", "why_tests_cant": "Continuum of complex values; tests only compare two implementations.", "anchors": ["ssqueezepy/algos.py: phase_cwt_cpu, phase_stft_cpu", "ssqueezepy/_ssq_cwt.py: phase_cwt", "ssqueezepy/_ssq_stft.py: phase_stft"]}
{"id": "C71", "title": "Batched cwt equals per-signal cwt", "statement": "cwt of a 2D array returns, for each row, exactly what cwt returns for that row alone, with the same scales; it is accepted whenever one of the rows is.", "quantifier": "every batch of equal-length signals, every wavelet, scales, pad type, norm, code path", "why_tests_cant": "Any batch size and any signal; broadcasting mistakes show only for some shapes.", "anchors": ["ssqueezepy/_cwt.py: cwt", "ssqueezepy/utils/common.py: padsignal"]}
{"id": "C72", "title": "Naming the scales or passing them inverts the same", "statement": "icwt given the name of the scale distribution used (and the number of voices) returns the same signal as icwt given the array of scales that name stands for.", "quantifier": "every name, number of voices, transform, wavelet, signal length", "why_tests_cant": "Depends on whether the piecewise search found a transition, which depends on wavelet, length and voices.", "anchors": ["ssqueezepy/_cwt.py: icwt", "ssqueezepy/utils/cwt_utils.py: process_scales, make_scales, logscale_transition_idx"]}
{"id": "C73", "title": "Ridge follows a dominant row", "statement": "With penalty 0, each extracted ridge is, at every time, at the row that has at least twice the (remaining) energy of every other row, wherever there is such a row.", "quantifier": "every transform, number of rows, columns and ridges, order of parallel iterations", "why_tests_cant": "A single silent column anywhere in the transform spoils all later times; tests use signals without silence.", "anchors": ["ssqueezepy/ridge_extraction.py: extract_ridges, _fw_ridge_tracking, _bw_ridge_tracking"]}
{"id": "C74", "title": "Ridges do not depend on the level of the columns", "statement": "Multiplying each column of the transform by its own nonzero complex factor changes neither the rows nor the scales extract_ridges returns, nor whether it succeeds.", "quantifier": "every transform, factors, penalty, number of ridges, bw, order of iterations", "why_tests_cant": "Continuum of factors; log and normalisation interplay.", "anchors": ["ssqueezepy/ridge_extraction.py: extract_ridges"]}
{"id": "C75", "title": "What extract_ridges reports", "statement": "extract_ridges returns as many ridges as asked; at each time the reported scale is that of the ridge's row and the reported energy is |Tf|^2 there, or 0 if that cell was cleared around an earlier ridge.", "quantifier": "every transform and argument", "why_tests_cant": "Unbounded sizes and numbers of ridges; index alignment.", "anchors": ["ssqueezepy/ridge_extraction.py: extract_ridges"]}
{"id": "C76", "title": "ssq_cwt returns the transform cwt returns", "statement": "The Wx, dWx and scales that ssq_cwt returns are those cwt returns for the same signal, wavelet, scales, nv, fs or t and padding (L1 norm), one column per sample.", "quantifier": "every signal, wavelet, scales argument, nv, fs, t, pad type, code path", "why_tests_cant": "The two entry points process the arguments separately; agreement must hold for all of them.", "anchors": ["ssqueezepy/_ssq_cwt.py: ssq_cwt", "ssqueezepy/_cwt.py: cwt"]}
{"id": "C77", "title": "Morse wavelets of different orders are orthonormal", "statement": "With norm='energy', the generalized Morse wavelets of orders j and k (same gamma, beta) have inner product 1 (times 2 pi) if j = k and 0 otherwise; with 'bandpass' they are orthogonal and have equal energies; the sqrt(scale) factor keeps the energy the same at every scale.", "quantifier": "every gamma, beta, pair of orders, scale", "why_tests_cant": "Integrals over the continuum; unbounded orders.", "anchors": ["ssqueezepy/_gmw.py: gmw, gmw_l2_k, gmw_l1_k, _gmw_k_constants"]}
{"id": "C78", "title": "Morse moments and frequencies are the integrals they name", "statement": "_morsemom returns the p-th moment and energy moment of the wavelet, morsefreq the peak, energy-mean and instantaneous frequencies, and the curvature measure is minus the skewness-like cumulant ratio of the wavelet.", "quantifier": "every gamma, beta, moment", "why_tests_cant": "Integrals over the continuum.", "anchors": ["ssqueezepy/_gmw.py: morsefreq, _morsemom, _morsemom1, _morsef, morseafun, _morsecurv"]}
{"id": "C79", "title": "gmw accepts exactly the documented arguments", "statement": "gmw builds a wavelet for exactly those arguments its checkers accept: positive gamma and beta, known norm (energy not with float32), orders that are non-negative integers, as ints or as integer-valued floats.", "quantifier": "every combination of arguments", "why_tests_cant": "Interplay of several checkers and defaults.", "anchors": ["ssqueezepy/_gmw.py: gmw, _check_args"]}
{"id": "C80", "title": "Evaluating a Morse wavelet leaves its input alone", "statement": "Calling the function gmw returns does not change the frequency array it is given.", "quantifier": "every array", "why_tests_cant": "Aliasing: shows only for arrays with negative entries kept by the caller.", "anchors": ["ssqueezepy/_gmw.py: gmw_l1, _gmw_l1"]}
{"id": "C81", "title": "compute_gmw samples gmw", "statement": "compute_gmw(N, scale, ...) returns gmw evaluated at scale times each DFT frequency, in DFT order, with the energy factor sqrt(scale).", "quantifier": "every length (even and odd), scale, gamma, beta, order, norm", "why_tests_cant": "Alignment of frequencies for every parity.", "anchors": ["ssqueezepy/_gmw.py: compute_gmw"]}
{"id": "C82", "title": "morsewave agrees with compute_gmw", "statement": "morsewave(N, freqs) returns for each frequency f and order k the samples compute_gmw gives at scale morsefreq/f.", "quantifier": "every length, list of frequencies, number of orders", "why_tests_cant": "Second implementation of the same wavelet with its own normalisation.", "anchors": ["ssqueezepy/_gmw.py: morsewave, _morsewave1, _morse_psizero"]}
{"id": "C83", "title": "A significant imaginary part survives", "statement": "Calling a wavelet keeps the imaginary part of its values when that is not small against the real part (imag_th times its size or more).", "quantifier": "every complex wavelet, frequency array and threshold", "why_tests_cant": "Depends on signs of sums over the array.", "anchors": ["ssqueezepy/wavelets.py: Wavelet.__call__, Wavelet._process_fn"]}
{"id": "C84", "title": "Wavelet properties follow the wavelet's length", "statement": "wc, std_t, std_w and the other time-frequency properties are those for the wavelet's present N; reset_properties recomputes them all, whatever the order in which it visits them.", "quantifier": "every program of length changes, reads and resets; every iteration order of the set of properties", "why_tests_cant": "Histories and set order.", "anchors": ["ssqueezepy/wavelets.py: Wavelet.reset_properties, Wavelet.wc, Wavelet.wc_ct, Wavelet.scalec_ct, Wavelet.std_t, Wavelet.std_w"]}
{"id": "C85", "title": "freq_resolution is a standard deviation", "statement": "freq_resolution(wavelet, scale, N, nondim=False) squared is the variance of |psih|^2 over the N frequencies.", "quantifier": "every wavelet, scale and even N", "why_tests_cant": "Continuum of wavelets; only visible for N other than 1024.", "anchors": ["ssqueezepy/wavelets.py: freq_resolution, center_frequency"]}
{"id": "C86", "title": "center_frequency honours force_int", "statement": "center_frequency(kind='energy', force_int=False) computes at the centring scale and rescales by formula; force_int=True integrates at the scale given.", "quantifier": "every wavelet, scale, N", "why_tests_cant": "The two differ only by discretisation on well-behaved wavelets.", "anchors": ["ssqueezepy/wavelets.py: center_frequency"]}
{"id": "C87", "title": "Energies of the Morlet and Mexican-hat wavelets", "statement": "The Morlet wavelet's transform vanishes at frequency 0 and its squared modulus integrates to 2 pi for every mu other than 0; the complex Mexican hat's integrates to 1 for every centre mu and width s > 0; the analytic Hermitian hat vanishes up to its centre and is beyond it twice a function of unit energy.", "quantifier": "every mu, s", "why_tests_cant": "Integrals over the real line for a continuum of parameters.", "anchors": ["ssqueezepy/wavelets.py: morlet, cmhat, hhhat"]}
{"id": "C88", "title": "Defaults are looked up under the caller's module", "statement": "gdefaults called without a section name uses the section of the calling function in the module named after the caller's file.", "quantifier": "every file name and directory", "why_tests_cant": "Depends on the letters of the file name.", "anchors": ["ssqueezepy/configs.py: gdefaults"]}
{"id": "C89", "title": "Automatic sample count avoids aliasing", "statement": "With N left out, lchirp, echirp, echirp_pc and hchirp are sampled so densely that the phase advances by at most pi between consecutive samples.", "quantifier": "every valid tmin < tmax and frequencies", "why_tests_cant": "Continuum of parameters; the bound is on every pair of samples.", "anchors": ["ssqueezepy/_test_signals.py: _est_N_nonalias, _process_params, _generate"]}
{"id": "C90", "title": "Given parameters override defaults", "statement": "A parameter given with a requested test signal reaches the generator as given; one left out takes its default: that set for the combined carrier:modulator name, else those of the carrier and of the modulator.", "quantifier": "every request and table of defaults", "why_tests_cant": "All dictionaries.", "anchors": ["ssqueezepy/_test_signals.py: make_signals, _process_input"]}
{"id": "C91", "title": "Requests can be repeated", "statement": "make_signals leaves the parameters it is given as they were, so that the same request made again gives the same signals.", "quantifier": "every request", "why_tests_cant": "Histories of calls sharing dictionaries.", "anchors": ["ssqueezepy/_test_signals.py: make_signals, _process_input"]}
{"id": "C92", "title": "A seed makes the noise reproducible", "statement": "With TestSignals(seed=s) the noise added to a signal does not depend on what was drawn from the generator before.", "quantifier": "every seed and generator state", "why_tests_cant": "Every history of draws.", "anchors": ["ssqueezepy/_test_signals.py: TestSignals.__init__, make_signals"]}
{"id": "C93", "title": "freq_to_scale inverts the scale-frequency map", "statement": "freq_to_scale returns, for each frequency, the scale of that frequency, if the wavelet's frequency is inversely proportional to its scale and the search reaches the end frequencies; invalid frequencies are refused.", "quantifier": "every list of frequencies, sampling rate, base and search size", "why_tests_cant": "All spacings of frequencies.", "anchors": ["ssqueezepy/experimental.py: freq_to_scale"]}
{"id": "C94", "title": "phase_ssqueeze honours its arguments", "statement": "phase_ssqueeze uses and returns the row frequencies Sfs given to it, unpads a transform handed over padded, and squeezes the transform by its phase transform or derivative.", "quantifier": "every transform and combination of arguments", "why_tests_cant": "Argument combinations; silently replaced values.", "anchors": ["ssqueezepy/experimental.py: phase_ssqueeze, phase_transform"]}
{"id": "C95", "title": "Numeric phase transform measures tones", "statement": "phase_cwt_num gives one value per column: infinity below the threshold, elsewhere |Im(D/Wx)|/2pi with D the difference scheme of the requested order on the row continued periodically. On a tone of f Hz the value is within theta^3/6, theta^3/3, theta^5/30 over 2 pi dt of f for orders 1, 2, 4 (theta = 2 pi f dt).", "quantifier": "every row, threshold, sampling period and tone frequency", "why_tests_cant": "Continuum of tones and rates; error bound for each order.", "anchors": ["ssqueezepy/_ssq_cwt.py: phase_cwt_num"]}
{"id": "C96", "title": "Phase transform from the unwrapped phase", "statement": "phase_cwt(difftype='phase') reports the frequency of a tone in Hz in every column.", "quantifier": "every tone below half the sampling rate, every row", "why_tests_cant": "All rows and lengths; unwrapping is a running correction.", "anchors": ["ssqueezepy/_ssq_cwt.py: phase_cwt"]}
{"id": "C97", "title": "Higher-order transforms", "statement": "cwt(order=k) is the transform with the order-k wavelet; with several orders it returns the entrywise mean over orders, or the list of transforms with average=False, all at the same scales; a batch gets what each signal gets alone; l1_norm must match the wavelet and negative orders are rejected.", "quantifier": "every signal or batch, list of orders, scales and normalisation", "why_tests_cant": "All combinations of orders, averaging, batches.", "anchors": ["ssqueezepy/_cwt.py: cwt, cwt_higher_order, _process_args"]}
{"id": "C98", "title": "Two-integral inverse", "statement": "icwt(one_int=False) inverts cwt called with the same arguments: it filters each row with its wavelet again and sums over scales with the weights of the scale type over the admissibility constant; for a flat response it returns the signal.", "quantifier": "every transform, pad type, recognised scales and normalisation", "why_tests_cant": "Continuum of signals; all lengths and paddings.", "anchors": ["ssqueezepy/_cwt.py: icwt, _icwt_2int"]}
{"id": "C99", "title": "ssq_cwt's arrays have one column per sample", "statement": "For every signal, order and difftype for which ssq_cwt returns, Tx, Wx, w and dWx have exactly one column per sample of x.", "quantifier": "all signals, pad types, orders (integers and sequences), difference types and scales", "why_tests_cant": "tests use the default difftype and a few lengths; the slices depend on the pad widths of every length", "anchors": ["ssqueezepy/_ssq_cwt.py: ssq_cwt, _phase_transform", "ssqueezepy/_cwt.py: cwt, cwt_higher_order"]}
{"id": "C100", "title": "ssq_cwt with higher orders returns cwt's transform of these orders", "statement": "With a pad type and difftype 'trig' or 'phase', for every positive order or sequence of orders, the Wx, scales and dWx that ssq_cwt returns equal what cwt(x, ..., order, average, derivative=True) returns with the same arguments.", "quantifier": "all signals, pad types, orders, scales, wavelets (families of filters) and sampling rates", "why_tests_cant": "ssq_cwt differentiates the padded transform after averaging while cwt multiplies the wavelets by i*xi before; that both agree is an identity over all inputs", "anchors": ["ssqueezepy/_ssq_cwt.py: ssq_cwt", "ssqueezepy/_cwt.py: cwt_higher_order", "ssqueezepy/utils/common.py: trigdiff"]}
{"id": "C101", "title": "Batched stft equals the signals' stfts", "statement": "stft of a 2D array returns one transform (and one derivative) per row, each exactly what stft returns for that row alone; the batch is accepted whenever every row is.", "quantifier": "all batches of equally long signals, windows, n_fft, hops, pad types, modulation, sampling rates", "why_tests_cant": "Equality for every batch size and content.", "anchors": ["ssqueezepy/_stft.py: stft, _stft", "ssqueezepy/utils/stft_utils.py: buffer", "ssqueezepy/utils/common.py: padsignal"]}
{"id": "C102", "title": "Batched synchrosqueezing equals the signals' synchrosqueezing", "statement": "ssqueeze on 3D arrays, ssq_cwt and ssq_stft on 2D signals give each signal exactly the transform, frequencies and scales it gets alone, for every squeezing; get_w=True is refused for batches.", "quantifier": "all batches, squeezing choices, scales, frequencies, phase inputs, directions", "why_tests_cant": "All combinations of arguments and batch sizes; measures that depend on the array's first dimension.", "anchors": ["ssqueezepy/ssqueezing.py: ssqueeze", "ssqueezepy/_ssq_cwt.py: ssq_cwt", "ssqueezepy/_ssq_stft.py: ssq_stft"]}
{"id": "C103", "title": "Batched ssq_cwt with higher orders", "statement": "With a positive order or several orders, ssq_cwt of a 2D array works on each signal's unpadded transform and derivative, as it does for the signal alone.", "quantifier": "all batches, orders, scales given as arrays, pad types", "why_tests_cant": "The slice taken depends on every length; a wrong axis goes unnoticed for shapes where it is harmless.", "anchors": ["ssqueezepy/_ssq_cwt.py: ssq_cwt", "ssqueezepy/_cwt.py: cwt_higher_order"]}
{"id": "C104", "title": "Wavelet keeps the options it is given", "statement": "If Wavelet((name, options), dtype) succeeds then name is (up to case) a supported wavelet, every option given is one of its parameters, and the wavelet's configuration has exactly the options given together with the configured defaults of the others. Name alone means no options. Unsupported names and options the wavelet lacks are errors.", "quantifier": "all configuration files that load, names, options and dtypes", "why_tests_cant": "The result merges three sources (call, configuration file, defaults) for every name and every subset of options.", "anchors": ["ssqueezepy/wavelets.py: Wavelet.__init__, _set_fn, _process_dtype", "ssqueezepy/configs.py: gdefaults"]}
{"id": "C105", "title": "The norm of a GMW follows l1_norm", "statement": "In every sequence of cwt calls with one wavelet argument, each call that uses a Generalized Morse Wavelet uses 'bandpass' norm if its own l1_norm is True and 'energy' otherwise, or refuses.", "quantifier": "all configurations, wavelet arguments (name, tuple with options, object, function) and histories of calls", "why_tests_cant": "A caller's dictionary is kept between calls; only histories show it.", "anchors": ["ssqueezepy/_cwt.py: _process_gmw_wavelet, cwt", "ssqueezepy/wavelets.py: Wavelet"]}
{"id": "C106", "title": "Every documented way of naming the dtype works", "statement": "Wavelet(spec, dtype=d) accepts float32 and float64 as string, numpy class, numpy dtype and torch dtype whenever spec works without dtype, and the wavelet has this dtype (float64 for norm='energy').", "quantifier": "all specifications and configurations, every way of naming the dtype", "why_tests_cant": "The text of the dtype is parsed; tests only try strings.", "anchors": ["ssqueezepy/wavelets.py: Wavelet._process_dtype, Wavelet.__init__"]}
{"id": "C107", "title": "cwt accepts the same wavelet names as Wavelet", "statement": "For every string s, cwt(x, s) is accepted if and only if Wavelet(s) is, and then uses the same wavelet (up to norm for 'gmw').", "quantifier": "all strings and configurations", "why_tests_cant": "All strings.", "anchors": ["ssqueezepy/_cwt.py: _process_gmw_wavelet", "ssqueezepy/wavelets.py: Wavelet"]}
{"id": "C108", "title": "psifn is centred", "statement": "Wavelet.psifn(scale, N) is the inverse DFT of the sampled wavelet moved to the middle: it is conjugate symmetric about index N/2 for wavelets with real spectrum, and its largest sample is at N//2 for wavelets with nonnegative spectrum.", "quantifier": "all wavelets, scales, lengths", "why_tests_cant": "Identities and inequalities over all spectra and lengths.", "anchors": ["ssqueezepy/wavelets.py: Wavelet.psifn"]}
{"id": "C109", "title": "nan_checks zeroes exactly the bad samples", "statement": "With nan_checks None or True, cwt of a numpy array sets exactly its NaN and infinite samples to 0 (in the caller's array) and changes nothing else; with nan_checks=False, or for tensors, nothing is changed.", "quantifier": "all 1D and 2D arrays (any strides with distinct cells), all contents including NaN and infinities", "why_tests_cant": "Detection relies on max and min; it must be complete for every mixture of NaN, +inf, -inf.", "anchors": ["ssqueezepy/_cwt.py: cwt, _process_args, cwt_higher_order", "ssqueezepy/utils/common.py: replace_at_inf_or_nan"]}
{"id": "C110", "title": "Tx, Wx, w and dWx of ssq_cwt fit together", "statement": "With get_w=True: w is the phase transform of the Wx and dWx returned with the documented threshold; Tx is the reassignment of Wx by w over the scales and frequencies returned, column by column (for difftype='numeric', column j of Tx and w belongs to column n1+j-4 of Wx).", "quantifier": "all signals, pad types, wavelets, scales and logarithmic frequencies; order 0, or any order with a pad type; 'numeric' with order 0 and at least four samples of padding on each side; squeezing 'sum', flipud", "why_tests_cant": "Slices on several arrays have to agree for every length and scale.", "anchors": ["ssqueezepy/_ssq_cwt.py: ssq_cwt, _phase_transform", "ssqueezepy/ssqueezing.py: ssqueeze"]}
{"id": "C111", "title": "find_min_scale puts the cutoff on the greatest bin", "statement": "find_min_scale(wavelet, cutoff) returns a scale whose greatest sampled frequency (pi times it) is right of the peak for cutoff>0 and left of it otherwise (peak excluded), where |wavelet| is |cutoff| of its peak up to one search step; a lesser cutoff gives a lesser scale.", "quantifier": "all real wavelets and cutoffs", "why_tests_cant": "The search is numeric and must land correctly for every function.", "anchors": ["ssqueezepy/utils/cwt_utils.py: find_min_scale, cwt_scalebounds", "ssqueezepy/algos.py: find_maximum, find_first_occurrence"]}
{"id": "C112", "title": "find_max_scale puts bin_amp on bin_loc", "statement": "find_max_scale(wavelet, N, bin_loc, bin_amp) returns a positive scale that places bin bin_loc at the last sampled frequency below the peak where the wavelet is under bin_amp of its maximum; greater bin_loc or lesser bin_amp give a lesser scale.", "quantifier": "all real wavelets, lengths, bins, amplitudes", "why_tests_cant": "Index arithmetic over all lengths and functions.", "anchors": ["ssqueezepy/utils/cwt_utils.py: find_max_scale", "ssqueezepy/wavelets.py: center_frequency"]}
{"id": "C113", "title": "find_max_scale_alt is symmetric about the peak", "statement": "find_max_scale_alt(wavelet, N, min_cutoff, max_cutoff) returns a positive scale at which two consecutive frequencies lie symmetrically about the peak, where the wavelet is between min_cutoff and max_cutoff of its maximum.", "quantifier": "all real wavelets, lengths and cutoffs", "why_tests_cant": "Found by a heuristic on fractional parts that must work for every function.", "anchors": ["ssqueezepy/utils/cwt_utils.py: find_max_scale_alt, cwt_scalebounds"]}
{"id": "C114", "title": "The admissibility constants are the integrals they claim to be", "statement": "adm_ssq and adm_cwt are the integrals over positive frequencies of psih(w)/w and |psih(w)|^2/w: integrate_analytic equals the integral of its argument up to an explicit error proportional to its Lipschitz constant, the part not integrated is negligible when no warning is given, and when the warning 'Integrated only from 1e-15 to 0.1' is given, the result is that part of the integral.", "quantifier": "all real-valued functions (Lipschitz on the range integrated; unimodal for the tail)", "why_tests_cant": "A quadrature is right for every integrand or it is not; tests compare a few wavelets with themselves.", "anchors": ["ssqueezepy/utils/cwt_utils.py: integrate_analytic, adm_ssq, adm_cwt", "ssqueezepy/algos.py: _min_neglect_idx"]}
{"id": "C115", "title": "window_area and window_resolution measure the window", "statement": "window_area(window, time=True) is the energy, the sum of |w|^2, less half of its end samples, and with frequency=True the area under the power spectrum over [-pi, pi), never negative (2*pi times the energy by Parseval, less the end samples); window_resolution returns std_w, std_t and their product harea, the standard deviations of the window in frequency and time: std_t lies between 0 and half the length, std_w between 0 and pi, neither changes when the window is scaled by a nonzero factor.", "quantifier": "all real windows of any length", "why_tests_cant": "Spectral moments over every window; a reordering mistake shows only as a slightly wrong number.", "anchors": ["ssqueezepy/utils/stft_utils.py: window_resolution, window_area"]}
{"id": "C116", "title": "The scale bounds of cwt_scalebounds are in order", "statement": "cwt_scalebounds(wavelet, N, preset='maximal') with its numeric searches returns 0 <= min_scale < max_scale, and the peak of the wavelet at min_scale lies at or above the greatest frequency sampled.", "quantifier": "all wavelets with one peak, all lengths and paddings", "why_tests_cant": "The two bounds come from independent numeric searches; their order has to hold for every wavelet and length.", "anchors": ["ssqueezepy/utils/cwt_utils.py: cwt_scalebounds, find_min_scale, find_max_scale"]}
{"id": "C117", "title": "The RiskShrink threshold follows the finest rows", "statement": "mad(data, axis) is the mean absolute deviation from the mean, over everything, each column or each row; est_riskshrink_thresh(Wx, nv) is 1.4826*sqrt(2*ln N) times that of |Wx| over the first nv rows: it ignores all other rows, is nonnegative, scales with |c| when Wx is multiplied by c, and is zero just when those moduli are all equal or N = 1.", "quantifier": "all 2D arrays of any shape, all axes and nv", "why_tests_cant": "Broadcasting rules depend on the shape; equality cases need all arrays.", "anchors": ["ssqueezepy/utils/common.py: mad, est_riskshrink_thresh"]}
{"id": "C118", "title": "find_closest_parallel_is_faster answers what it is asked", "statement": "find_closest_parallel_is_faster returns True if and only if find_closest took less time with parallel=True than with parallel=False.", "quantifier": "all pairs of running times", "why_tests_cant": "The times vary from run to run; the answer must be right for all.", "anchors": ["ssqueezepy/utils/common.py: find_closest_parallel_is_faster"]}
{"id": "C119", "title": "mad_rms is a scale-invariant error", "statement": "mad_rms(x, xrec) is nonnegative, zero just when xrec equals x, unchanged when x and xrec are multiplied by the same nonzero factor, and at most the relative root mean square error.", "quantifier": "all real (and complex) signals of any length, all factors", "why_tests_cant": "Inequalities and invariances over all signals.", "anchors": ["ssqueezepy/toolkit.py: mad_rms"]}
{"id": "C120", "title": "where_amax returns exactly the places of the greatest modulus", "statement": "where_amax(x) returns every index at which abs(x) is greatest and no other, each once, in row-major order, at least one; an empty array raises ValueError.", "quantifier": "all complex 2D arrays of any shape", "why_tests_cant": "Ties and positions over all arrays.", "anchors": ["ssqueezepy/toolkit.py: where_amax"]}
{"id": "C121", "title": "cos_f and sin_f place one tone after the other", "statement": "cos_f(freqs, N, phi, endpoint) and sin_f return N samples for each frequency in turn; sample k of tone i is the cosine (sine) of 2*pi*f_i*(i + k/N + phi), with N-1 for N if endpoint; for whole frequencies and phi=0 each tone starts at its crest; no frequencies raise ValueError.", "quantifier": "all lists of frequencies, all N, phi", "why_tests_cant": "Positions over all lengths.", "anchors": ["ssqueezepy/toolkit.py: cos_f, sin_f, _t"]}
{"id": "C122", "title": "time_resolution integrates over the shortest span that holds the wavelet", "statement": "time_resolution(wavelet, scale, N, ..., force_int=True, nondim=False) is the square root of the second moment of |psi|^2 about the middle of the shortest span of min_mult to max_mult times N samples over which the wavelet decays by min_decay; it raises just when there is no such span; it lies between 0 and half the greatest span and does not depend on the amplitude of the wavelet; nondim multiplies by the peak frequency; without force_int, scales below 4 or above N/5 use the value at the centring scale in proportion.", "quantifier": "all wavelets, scales, lengths and options", "why_tests_cant": "The least span and the bounds are claims over all wavelets.", "anchors": ["ssqueezepy/wavelets.py: time_resolution"]}
{"id": "C123", "title": "center_frequency(kind='peak') is the sampled frequency of greatest modulus", "statement": "center_frequency(wavelet, scale, N, kind='peak') is a sampled frequency, at none of the sampled frequencies is the modulus of the wavelet at that scale greater, and it lies from 0 to pi.", "quantifier": "all real-valued wavelets, scales and lengths from 2", "why_tests_cant": "A maximum over all samples and lengths, with ties.", "anchors": ["ssqueezepy/wavelets.py: center_frequency"]}
{"id": "C124", "title": "Wisdom is only expansive", "statement": "A plan stored in the wisdom files is found there ever after, whatever processes use the FFT class with patience != 0, in whatever order, and wherever they end; a process that has saved has all its plans in the files.", "quantifier": "all histories of any number of processes sharing a wisdom directory, interleaved step by step, ending at any point", "why_tests_cant": "Needs all interleavings and crash points of unboundedly many processes.", "anchors": ["ssqueezepy/utils/fft_utils.py: FFT.load_wisdom, FFT.save_wisdom, FFT._get_save_fill"]}
{"id": "C125", "title": "The pyFFTW path returns arrays like those of scipy", "statement": "fft, rfft, ifft and irfft with patience 1 or 2 accept what patience 0 accepts and return the same shape and dtype; irfft(rfft(x), n=len) has the shape and dtype of x.", "quantifier": "all shapes with any number of axes, all dtypes, axes 0, 1, -1, all n", "why_tests_cant": "Shapes and lengths are unbounded.", "anchors": ["ssqueezepy/utils/fft_utils.py: FFT._process_input, FFT._get_output_shape, FFT._validate_input"]}
{"id": "C126", "title": "Parallel chirps use the frequencies they are given, in order", "statement": "par_lchirp, par_echirp and par_hchirp use every frequency that is passed; those left open are chosen so that fmin1 < fmin2, fmax1 < fmax2 <= N/2, and where all are left open the second chirp is above the first by the same difference (N/10) or ratio (1.5, 3) at both ends.", "quantifier": "all lengths, all combinations of given and omitted frequencies", "why_tests_cant": "Sixteen combinations of arguments with real values.", "anchors": ["ssqueezepy/_test_signals.py: TestSignals.par_lchirp, par_echirp, par_hchirp"]}
{"id": "C127", "title": "jumps plays its tones one after the other", "statement": "jumps(N, freqs) returns N samples; sample j is the cosine of the tone j // (N // len(freqs)) at the returned time t[j]; time starts at tmin and each tone lasts tmax - tmin.", "quantifier": "all lengths, lists of frequencies and times", "why_tests_cant": "Positions and lengths are unbounded.", "anchors": ["ssqueezepy/_test_signals.py: TestSignals.jumps"]}
{"id": "C128", "title": "packed overlaps its tones as asked", "statement": "packed(N, freqs, overlap): tones of even number sound in the first int(overlap*N) samples, tones of odd number in the last int(overlap*N), and nowhere else.", "quantifier": "all times, frequencies and overlaps from 0 to 1", "why_tests_cant": "All lengths and overlaps, including none.", "anchors": ["ssqueezepy/_test_signals.py: TestSignals.packed"]}
{"id": "C129", "title": "packed_poly and poly_cubic keep their bands and never alias", "statement": "For every N the components of packed_poly(N) and poly_cubic(N) have instantaneous frequencies in fixed bands proportional to N (packed_poly's second one up to 0.3), successive samples differ in phase by at most pi (N >= 9, N >= 3), and the signals are bounded by 3.5 and 3.", "quantifier": "all N, all samples", "why_tests_cant": "A bound for every length and the whole duration.", "anchors": ["ssqueezepy/_test_signals.py: TestSignals.packed_poly, TestSignals.poly_cubic"]}
{"id": "C130", "title": "TestSignals instances have their own defaults", "statement": "A default argument of a TestSignals instance changes only by assignment to that instance; a new instance has the given values and the module's defaults for others; making it leaves the caller's dictionary alone.", "quantifier": "all histories of making dictionaries and instances and assigning defaults", "why_tests_cant": "Sharing shows only in histories of several instances.", "anchors": ["ssqueezepy/_test_signals.py: TestSignals.__init__"]}
{"id": "C131", "title": "wavelet_tf_anim never overwrites a file", "statement": "wavelet_tf_anim(savepath=...) returns a path at which there was no file, adding the least number that is above all numbers in use to a name that is taken, whatever else is in the directory.", "quantifier": "all directories, names and files", "why_tests_cant": "Any set of files may be there.", "anchors": ["ssqueezepy/visuals.py: wavelet_tf_anim"]}
{"id": "C132", "title": "The scales and frames of an animation are in order", "statement": "From sorted scales, wavelet_tf_anim makes a sorted list with the same first and last scale, the inner scales kept as they are, of a length that depends only on their number; frames run through it forth and back, adjacent frames one apart; it fails exactly for fewer than two scales.", "quantifier": "all lists of scales", "why_tests_cant": "All lengths, including the rounding of the shares at both ends.", "anchors": ["ssqueezepy/visuals.py: wavelet_tf_anim, _make_anim_scales"]}
{"id": "C133", "title": "wavelet_tf picks a scale that looks nice, if there is one", "statement": "wavelet_tf without a scale picks one whose time resolution lies between 65 and 75 times N/2048, for every wavelet whose time resolution is proportional to the scale.", "quantifier": "all lengths, all proportionality constants, all starting scales within a factor of 1.1**100", "why_tests_cant": "A loop with a bound on its rounds, over real starting points.", "anchors": ["ssqueezepy/visuals.py: wavelet_tf"]}
{"id": "C134", "title": "plots draws every curve it is given", "statement": "plots(X, Y, nrows, ncols) draws X[i] against Y[i] in axes i for every i, if no more rows and columns are asked for than there are curves.", "quantifier": "all lists, all numbers of rows and columns", "why_tests_cant": "All lengths and grids.", "anchors": ["ssqueezepy/visuals.py: plots"]}
{"id": "C135", "title": "Tick labels belong to the values at their positions", "statement": "With ticks given as an array, imshow and plot set eight ticks, the first at the first value, the last at the last, in order, each labelled by the value at its position, all different from eight values on; an empty array raises.", "quantifier": "all arrays of ticks", "why_tests_cant": "All lengths, with integer rounding.", "anchors": ["ssqueezepy/visuals.py: _ticks"]}
{"id": "C136", "title": "plot shows all of each curve", "statement": "Curves plotted into the same axes by successive calls of plot(x, y) without xlims are all within the limits of the x-axis; xlims, if given, are the limits.", "quantifier": "all histories of calls on one axes", "why_tests_cant": "Needs histories of any length.", "anchors": ["ssqueezepy/visuals.py: plot, _scale_plot"]}
{"id": "C137", "title": "imshow uses the whole range of colours and never clips", "statement": "imshow without norm uses limits symmetric about zero (from zero with abs) that no drawn value exceeds and that some entry's modulus reaches; limits that are given are used; any options can be combined.", "quantifier": "all complex matrices, all combinations of options", "why_tests_cant": "A maximum over all entries, 256 combinations.", "anchors": ["ssqueezepy/visuals.py: imshow"]}
{"id": "C138", "title": "Frequency axes of wavelet plots are true", "statement": "In the frequency-domain plots of wavelet_filterbank, wavelet_tf, wavelet_waveforms and viz_gmw_orders, the value of the wavelet at a frequency is drawn at this frequency.", "quantifier": "all lengths from 4, all positive scales", "why_tests_cant": "Holds for some lengths only; needs every point of every length.", "anchors": ["ssqueezepy/visuals.py: wavelet_filterbank, wavelet_tf, wavelet_waveforms, viz_gmw_orders"]}
{"id": "C139", "title": "lin_band follows its line and stays inside the transform", "statement": "lin_band(Tx, slope, offset, bw) returns one centre and one half-width per sample; each centre is within one row of the line slope*(t + offset) times the number of rows, half-widths are within one of bw times the number of rows; centres are rows of Tx.", "quantifier": "all shapes, slopes, offsets and widths", "why_tests_cant": "Real parameters; rounding.", "anchors": ["ssqueezepy/toolkit.py: lin_band"]}
{"id": "C140", "title": "Equal axes", "statement": "plot(..., ax_equal=True) gives both axes the same limits, symmetric about zero: the least ones that contain all that was shown; without ax_equal, the limits asked for are the limits there are.", "quantifier": "all limits there were, all combinations of xlims, ylims, auto_xlims and ax_equal", "why_tests_cant": "Real-valued limits; all combinations of options.", "anchors": ["ssqueezepy/visuals.py: plot, _scale_plot"]}
{"id": "C141", "title": "The Heisenberg area of a wavelet is at least one half", "statement": "wavelet.harea, the product of time and frequency resolution, is at least 0.5, as documented, for every wavelet and length for which it is computed.", "quantifier": "all wavelet functions with one peak, all lengths", "why_tests_cant": "The bound must hold for every function; the numbers are finite sums.", "anchors": ["ssqueezepy/wavelets.py: Wavelet.harea, Wavelet.std_t, Wavelet.std_w, time_resolution, freq_resolution"]}
{"id": "C142", "title": "The Heisenberg area does not depend on the units", "statement": "The product of the nondimensional resolutions (harea, info()) is the product of the dimensional ones (std_t_d*std_w_d, info(nondim=False)): what one multiplies by, the other divides by.", "quantifier": "all wavelet functions with one peak, all lengths", "why_tests_cant": "Functions as inputs.", "anchors": ["ssqueezepy/wavelets.py: Wavelet.harea, Wavelet.info, time_resolution, freq_resolution, center_frequency"]}
{"id": "C143", "title": "wavelet.xi is the frequency axis of wavelet.N", "statement": "After any history of assignments to wavelet.N, refused ones included, wavelet.xi is the frequency axis of wavelet.N samples; assignments that cannot be met are refused.", "quantifier": "all histories of integers assigned", "why_tests_cant": "Histories with exceptions in between.", "anchors": ["ssqueezepy/wavelets.py: Wavelet.N, Wavelet.xi, _xifn"]}
{"id": "C144", "title": "wavelet.xifn has one row of frequencies per scale", "statement": "wavelet.xifn(scale) (and so wavelet(scale=...)) is, for every scale array that it accepts, the frequency axis times each scale, one row per scale; it raises ValueError for two-dimensional scales.", "quantifier": "all scale arguments: None, numbers, arrays with 0, 1, 2 dimensions", "why_tests_cant": "All shapes.", "anchors": ["ssqueezepy/wavelets.py: Wavelet.xifn, Wavelet.__call__"]}
{"id": "C145", "title": "Shifting the signal shifts its transforms", "statement": "Without padding, cwt and ssq_cwt of a circularly shifted signal are the circularly shifted results of the signal (derivative, scales and frequencies included), and one call fails exactly when the other does for cwt.", "quantifier": "all signals, shifts, wavelets, scales and other options, padtype=None", "why_tests_cant": "Ranges over all signals and all options.", "anchors": ["ssqueezepy/_cwt.py: cwt", "ssqueezepy/_ssq_cwt.py: ssq_cwt", "ssqueezepy/ssqueezing.py: ssqueeze"]}
{"id": "C146", "title": "Reversing the signal reverses its transforms", "statement": "Without padding and with a wavelet that is real in frequency, cwt and ssq_cwt of the signal reversed in time are the conjugates of the results, reversed (the derivative with a minus sign), over the same frequencies.", "quantifier": "all signals, wavelets real in the frequency domain, scales and other options, padtype=None", "why_tests_cant": "Ranges over all signals and all options.", "anchors": ["ssqueezepy/_cwt.py: cwt", "ssqueezepy/_ssq_cwt.py: ssq_cwt", "ssqueezepy/ssqueezing.py: ssqueeze"]}
{"id": "C147", "title": "The unit of the signal does not matter", "statement": "If signal and gamma are multiplied by the same nonzero number c (|c| for gamma), ssq_cwt returns the same scales and frequencies, and its transforms times c: Tx too for squeezing='sum', times |c| for 'abs', and unchanged for 'lebesgue'.", "quantifier": "all signals, numbers c, wavelets, scales, paddings and other options", "why_tests_cant": "Ranges over all signals and real factors.", "anchors": ["ssqueezepy/_cwt.py: cwt", "ssqueezepy/_ssq_cwt.py: ssq_cwt", "ssqueezepy/ssqueezing.py: ssqueeze"]}
{"id": "C148", "title": "The unit of time does not matter", "statement": "If the sampling rate (and frequencies or frequency ranges given) are multiplied by c > 0, ssq_cwt returns the same scales, transform and synchrosqueezed transform, and its frequencies and derivative times c.", "quantifier": "all signals, factors c > 0, wavelets with positive center frequencies, scales, frequency layouts, ranges, paddings and other options", "why_tests_cant": "Ranges over all signals, layouts and real factors.", "anchors": ["ssqueezepy/_ssq_cwt.py: ssq_cwt", "ssqueezepy/ssqueezing.py: ssqueeze, _compute_associated_frequencies, _ssq_freqrange, _exp_fm", "ssqueezepy/algos.py: _process_ssq_params, _get_params_find_closest_log, _ensure_nonzero_nonnegative"]}
{"id": "C149", "title": "Shifting the signal by hops shifts its STFT", "statement": "With padtype='wrap' and a hop that divides the length, stft and ssq_stft of a signal shifted circularly by q hops are the results of the signal shifted circularly by q columns (derivative included), over the same frequencies.", "quantifier": "all signals, windows, FFT lengths, hops dividing the length, numbers of hops and other options, padtype='wrap'", "why_tests_cant": "Ranges over all signals and all options.", "anchors": ["ssqueezepy/_stft.py: stft", "ssqueezepy/_ssq_stft.py: ssq_stft", "ssqueezepy/ssqueezing.py: ssqueeze"]}
{"id": "C150", "title": "The unit of the signal does not matter to ssq_stft", "statement": "If signal and gamma are multiplied by the same nonzero number c (|c| for gamma), stft is multiplied by c, and ssq_stft returns the same frequencies, and Tx times c for squeezing='sum', times |c| for 'abs', unchanged for 'lebesgue'.", "quantifier": "all signals, numbers c, windows, paddings, hops and other options", "why_tests_cant": "Ranges over all signals and real factors.", "anchors": ["ssqueezepy/_stft.py: stft", "ssqueezepy/_ssq_stft.py: ssq_stft", "ssqueezepy/ssqueezing.py: ssqueeze", "ssqueezepy/algos.py: _ssq_stft"]}
{"id": "C151", "title": "The unit of time does not matter to ssq_stft", "statement": "If the sampling rate (and frequencies given) are multiplied by c > 0, ssq_stft returns the same Sx and Tx, and its frequencies times c.", "quantifier": "all signals, factors c > 0, windows, paddings, hops, frequencies and other options", "why_tests_cant": "Ranges over all signals and real factors.", "anchors": ["ssqueezepy/_ssq_stft.py: ssq_stft, _make_Sfs", "ssqueezepy/ssqueezing.py: ssqueeze"]}
{"id": "C152", "title": "The cutoffs decide the scale bounds", "statement": "cwt_scalebounds without a preset succeeds only with 0 < min_cutoff < max_cutoff (0.6 and 0.8 where not given) and then returns the least scale for cutoff (-0.5 where not given) and the greatest for these cutoffs and the padded length (the length, with use_padded_N=False); out-of-order cutoffs are a ValueError. A preset overrides all cutoffs: 'naive' is (1, N), 'minimal' is (0.6, 0.8, -0.5), 'maximal' is -0.5, bin_loc=2 and bin_amp=1 where not given or zero; another name is a ValueError.", "quantifier": "all wavelets, lengths, presets, cutoffs and bins", "why_tests_cant": "Ranges over all real cutoffs and all wavelets.", "anchors": ["ssqueezepy/utils/cwt_utils.py: cwt_scalebounds", "ssqueezepy/wavelets.py: find_max_scale_alt"]}
{"id": "C153", "title": "Components that do not overlap are squeezed independently", "statement": "If ssq_cwt is given a sum of signals, Wx and dWx are the sums of the signals' own, over the same scales and frequencies; and although squeezing is not linear, Tx of the sum is the sum of the signals' Tx in every column in which no two of the transforms are nonzero in one cell.", "quantifier": "all numbers of signals of one length, wavelets, scales, paddings, frequencies, positive thresholds and other options; squeezing 'sum' or 'abs'", "why_tests_cant": "Ranges over all families of signals and all wavelets.", "anchors": ["ssqueezepy/_ssq_cwt.py: ssq_cwt", "ssqueezepy/ssqueezing.py: ssqueeze", "ssqueezepy/_cwt.py: cwt"]}
{"id": "C154", "title": "Separated tones get rows of their own and are recovered", "statement": "For a sum of tones that are further apart than the band of a real wavelet (such as the bump wavelet), ssq_cwt puts each into the row whose frequency is nearest to its own and leaves all other rows zero; issq_cwt along these rows, with no width, returns each tone times its gain (the sum of the wavelet's responses to it over the scales at which it survives the threshold, over css) and a zero remainder.", "quantifier": "all numbers of tones with whole numbers of cycles, amplitudes, phases; all real wavelets with a band of positive frequencies, positive scales, sampling rates, positive thresholds; no padding, squeezing 'sum', flipud; logarithmic and uniform grids of frequencies", "why_tests_cant": "Ranges over all numbers of tones and all wavelets; a test samples a few.", "anchors": ["ssqueezepy/_ssq_cwt.py: ssq_cwt, issq_cwt", "ssqueezepy/ssqueezing.py: ssqueeze"]}
{"id": "C155", "title": "find_downsampling_scale finds the first group of wavelets that is too dense", "statement": "find_downsampling_scale returns i exactly if the i-th group of `span` wavelets is the first too dense one and at least two more groups follow, and None otherwise. A group is too dense if at most nonzero_tol samples per wavelet exceed the fraction nonzero_th of the wavelet's maximum, and the distances of the wavelets' peaks from the first peak of their product are all below tol ('any'), not all above tol ('all') or below tol in sum ('sum'). A greater tolerance, or the method 'any' for 'sum' or 'all' for 'any', never finds a later scale. Other methods, and lengths that do not match, are a ValueError; fewer than span + 2 wavelets an UnboundLocalError.", "quantifier": "all arrays of sampled wavelets, spans, tolerances, thresholds and methods", "why_tests_cant": "Ranges over all arrays and real tolerances.", "anchors": ["ssqueezepy/utils/cwt_utils.py: find_downsampling_scale, check_group, make_scales"]}
{"id": "C156", "title": "The documented conditions for wavelets that are too dense", "statement": "By its documentation find_downsampling_scale takes wavelets as not too dense if at least one peak ('any') or all peaks ('all') lie tol or more bins away from the joint peak, or if the sum of the distances is greater than tol ('sum').", "quantifier": "all arrays of sampled wavelets, spans, tolerances, thresholds and methods", "why_tests_cant": "Ranges over all arrays and real tolerances.", "anchors": ["ssqueezepy/utils/cwt_utils.py: find_downsampling_scale, check_group"]}
{"id": "C157", "title": "Bounds not given to make_scales, and linear scales", "statement": "Without a wavelet, or with one bound given, a bound not given to make_scales (or zero) is 1 or N; with a wavelet and no bounds, the bounds are those of cwt_scalebounds, whose errors are passed on. Linear scales are at least two, equally spaced and ascending; the first is within one voice at or below min_scale, the last within one voice of max_scale; the spacing is at most the first scale. From 3 to 10^13 of them (float32: 10^5) are recognised as linear by infer_scaletype.", "quantifier": "all lengths, bounds, numbers of voices, wavelets and downsampling arguments", "why_tests_cant": "Ranges over all real bounds and numbers of voices.", "anchors": ["ssqueezepy/utils/cwt_utils.py: make_scales, infer_scaletype"]}
{"id": "C158", "title": "Scales taken as logarithmic, linear or piecewise logarithmic are so", "statement": "If infer_scaletype takes an array as logarithmic, its logarithms are an arithmetic progression that starts with the first two, up to i n 4e-15 at the i-th of n (float32: 8e-7), and the number of voices is the integer nearest to the reciprocal of the first step in octaves. If as linear, so is the array, up to 1000 times that. If as piecewise logarithmic, the array is two such progressions that share an entry, up to i n 1e-14 (float32: 1e-6), and the numbers of voices are the reciprocals of the steps. An array of logarithms that bends at two places, and is neither logarithmic nor linear on average, is a ValueError. A transition is found exactly if the first largest bend of the logarithms is more than 100 times the mean of the others, and all others are below the tolerance.", "quantifier": "all arrays of positive scales, float64 and float32", "why_tests_cant": "Ranges over all real arrays.", "anchors": ["ssqueezepy/utils/cwt_utils.py: infer_scaletype, logscale_transition_idx, nv_from_scales"]}
{"id": "C159", "title": "The STFT is linear, and components that do not overlap are squeezed independently", "statement": "The STFT of a sum of signals, and its derivative, are the sums of the signals' own. If ssq_stft succeeds for the sum, it succeeds for each signal over the same frequencies, and in every column where no two transforms share a nonzero cell, Tx of the sum is the sum of the signals' Tx.", "quantifier": "all numbers of signals of one length, windows, FFT lengths, hops, paddings, variants, frequencies, thresholds and devices, squeezing 'sum' and 'abs'", "why_tests_cant": "Ranges over all signals and configurations; a test adds a few.", "anchors": ["ssqueezepy/_stft.py: stft", "ssqueezepy/_ssq_stft.py: ssq_stft", "ssqueezepy/ssqueezing.py: ssqueeze"]}
{"id": "C160", "title": "Tones in the STFT and in the synchrosqueezed STFT", "statement": "Let the window be a cosine sum with B harmonics (boxcar 0, periodic Hann and Hamming 1, periodic Blackman 2). The STFT of a tone at bin k is its analytic signal times the window's coefficient at the distance of the bin from k, zero further than B bins away, and the derivative is the transform times 2 pi i times that distance in Hz. If tones are more than 2B bins apart, ssq_stft of their sum is zero outside the rows of their frequencies, and holds in each of these rows the tone's analytic signal times a constant. With hop 1 and no nonzero cell below the threshold, issq_stft along these rows with zero width returns every tone times the sampling rate (for odd FFT lengths n, also times n/(n-1)), and an empty remainder.", "quantifier": "all numbers of tones with whole numbers of cycles, amplitudes, phases; all band-limited windows, FFT lengths, hops, sampling rates, thresholds, devices, get_w and flipud; periodic padding, modulated, squeezing 'sum', default frequencies", "why_tests_cant": "Ranges over all numbers of tones and all windows; a test samples a few.", "anchors": ["ssqueezepy/_stft.py: stft, get_window", "ssqueezepy/_ssq_stft.py: ssq_stft, issq_stft, phase_stft", "ssqueezepy/ssqueezing.py: ssqueeze"]}
{"id": "C161", "title": "Rounding errors of synchrosqueezing and of its inverse are bounded", "statement": "If additions and multiplications have relative errors of at most u (2^-53 in double precision), each entry of Tx differs from the exact sum of the n cells moved to it by at most (1+u)^(n+1)-1 times the sum of their magnitudes, in serial and parallel runs, which agree. A sum of n terms in any order and bracketing has an error of at most (1+u)^(n-1)-1 times the sum of magnitudes. The inverse, over all M rows, differs from the exact one by at most (1+u)^(2M+1)-1 times the factor times the sum of magnitudes, whatever rows the cells were moved to.", "quantifier": "all transforms, phases, row rules, constants, schedules, orders of summation and operations with bounded relative error; in particular rounding to nearest even with any number of digits", "why_tests_cant": "Ranges over all operations and orders of summation; a test sees one machine's.", "anchors": ["ssqueezepy/algos.py: _indexed_sum_log, _indexed_sum_lin and parallel versions", "ssqueezepy/_ssq_cwt.py: issq_cwt", "ssqueezepy/_ssq_stft.py: issq_stft"]}
{"id": "C162", "title": "Rounding errors of cwt and icwt are bounded", "statement": "If FFTs have relative error eta (in the root of the sum of squares), products u, the sampled wavelets (at most P) are off by at most v P and the frequencies (at most D) by v2 D, every sample of Wx differs from the exact one by at most ((1+eta)^2 (1+u) (1+v) - 1) P times the size of the padded signal, and of dWx by at most ((1+eta)^2 (1+u)^2 (1+v) (1+v2) - 1) P D times it, where D is at most pi/dt. The one-integral icwt over M scales of the computed transform differs from the exact inverse of the exact transform by at most ((1+u)^(M+3) (1+eta)^2 (1+v) - 1) times the factor, P, the size of the signal and the sum of the reciprocal norms, plus u times the mean.", "quantifier": "all signals, wavelets, scales, paddings, looped and vectorized, orders of summation and operations with bounded errors", "why_tests_cant": "Ranges over all signals and all FFT implementations with the given accuracy.", "anchors": ["ssqueezepy/_cwt.py: cwt, _icwt_1int, icwt"]}
{"id": "C163", "title": "Small changes of the transform change phases, rows and inverses little", "statement": "Let a cell of the transform change by at most e and of the derivative by e'. Cells of magnitude at least gamma + e are kept before and after, and their frequency changes by at most (e' + |dWx/Wx| e) / (2 pi gamma); cells below gamma - e are dropped before and after. A change of a frequency moves it by at most its quotient by the grid step (or that of the logarithm) plus one row. The column sums of Tx, from which the inverse is made, change by at most the sum of the changes of the cells times their constants, with gamma + e for the cells within e of gamma. (Full claim: every entry of Tx changes little.)", "quantifier": "all transforms, derivatives, changes, thresholds, grids, devices; CWT and STFT", "why_tests_cant": "Ranges over all transforms and perturbations.", "anchors": ["ssqueezepy/algos.py: phase_cwt_cpu, phase_stft_cpu, ssqueeze_fast", "ssqueezepy/ssqueezing.py: ssqueeze"]}
{"id": "C164", "title": "A signal that resembles a tone near a time is assigned the tone's frequency there", "statement": "Compare any signal with any tone of a whole number of cycles (below Nyquist) in the padded signal. The frequency that the phase transform assigns to a nonzero cell differs from the tone's by at most D / |Wx|, where D is the difference of signal and tone weighted by the wavelet of that scale around that time, each of its frequencies counted by its distance from the tone's; or, in the mean, by the root of the sum of squared differences times the largest product of wavelet and distance. For a signal of slowly varying amplitude and phase, D is bounded by the change of the amplitude and the deviation of the phase from a straight line. In ssq_cwt, if D is at most E gamma at every scale, the column of Tx is zero except in rows whose frequency is nearest to some frequency within E of the tone's.", "quantifier": "all signals, tones, times, analytic real-valued wavelets, positive scales, sampling rates, paddings, norms, code paths, devices; linear and logarithmic frequencies", "why_tests_cant": "Ranges over all signals and all nearby tones; a test sees one chirp and one noise.", "anchors": ["ssqueezepy/_cwt.py: cwt", "ssqueezepy/_ssq_cwt.py: ssq_cwt, phase_cwt", "ssqueezepy/algos.py: phase_cwt_cpu", "ssqueezepy/ssqueezing.py: ssqueeze"]}
{"id": "C165", "title": "Ridges of well separated components are found from the strongest to the weakest, and the components are recovered along them", "statement": "If one row has the most energy left in every column (by a relative margin of twice the machine epsilon), the ridge is that row in every column, whatever the penalty. If rows are ranked by strength and further apart than bw, extract_ridges returns them in that order, each constant, with the row's scale and the transform's energy. For ssq_cwt of a sum of tones separated by the wavelet's band, the ridges are the rows whose frequencies are nearest to the tones', from the strongest tone to the weakest, and issq_cwt along the returned ridges returns the tones, times gain over css, with nothing left over.", "quantifier": "all transforms with at least as many columns as rows, penalties that are not negative, bandwidths, numbers of ridges, orders of the parallel iterations; all sums of separated tones, real-valued wavelets of limited band, scales, rates; linear and logarithmic frequencies", "why_tests_cant": "Ranges over all transforms, numbers of components and schedules; a test sees one example.", "anchors": ["ssqueezepy/ridge_extraction.py: extract_ridges", "ssqueezepy/_ssq_cwt.py: ssq_cwt, issq_cwt"]}
{"id": "C166", "title": "The chirps and tones of TestSignals have the stated length, times and frequencies, and do not alias silently", "statement": "lchirp, echirp, echirp_pc and hchirp return N samples of the cosine of a phase that sweeps from fmin to fmax, at equal steps from tmin to tmax (or one step short of it without endpoint). fmax left out is half of N, rounded down. With fewer than two samples they raise. Without N but with fmax, N is such that the phase advances by at most half a turn per sample, nothing is warned of, and no smaller number would do for the highest frequency. sine and cosine leave the endpoint out unless told otherwise. (Full claims: chirps with default fmax do not alias without a warning; titles show the frequency the chirp ends at.)", "quantifier": "all lengths, times, frequencies for which the chirp is defined, defaults of the instance", "why_tests_cant": "Ranges over all lengths, times and frequencies.", "anchors": ["ssqueezepy/_test_signals.py: TestSignals.lchirp, echirp, echirp_pc, hchirp, sine, cosine, _generate, _process_params, _maybe_warn_alias, _process_varname_alias"]}
{"id": "C167", "title": "The synchrosqueezed STFT of a frame depends on that frame only, and a frame that resembles a tone is assigned the tone's frequency", "statement": "Compare the padded signal inside one frame with any tone of a whole number k of cycles per FFT length, further from 0 and from half of the sampling rate than the window's band. The frequency that the phase transform assigns to a nonzero cell of the frame differs from the tone's by at most D / |Sx|, where D is the difference of signal and tone inside the frame, weighted tap by tap with the modulus of the window's derivative minus 2 pi i times the bin's distance from the tone times the window; a frame that is exactly a tone is assigned exactly its frequency, whatever the signal does elsewhere. D is bounded by the deviations of amplitude and phase inside the frame. In ssq_stft, if D is at most E gamma in every bin, the column of Tx is zero except in rows whose frequency is nearest to some frequency within E of the tone's. For an odd FFT length n the axis is stretched by n/(n-1), which adds at most half a row.", "quantifier": "all signals, paddings, windows of limited band, FFT lengths, hops, sampling rates, tones, frames, bins, thresholds, devices, get_w, flipud", "why_tests_cant": "Ranges over all signals and all tones each frame may be compared with.", "anchors": ["ssqueezepy/_stft.py: stft", "ssqueezepy/_ssq_stft.py: ssq_stft, phase_stft", "ssqueezepy/ssqueezing.py: ssqueeze"]}
{"id": "C168", "title": "Ridges of the synchrosqueezed STFT of resolved tones are the tones' rows, and the tones are recovered along them", "statement": "For a sum of tones that the window can tell apart, in descending order of amplitude and in rows further apart than bw: ssq_stft, then extract_ridges of Tx with one ridge per tone. For every penalty that is not negative and every order of the parallel iterations, ridge c is the row of tone c in every column. issq_stft along the extracted ridges with width 0 returns every tone times the sampling rate (times n/(n-1) for odd FFT length n) and an empty remainder.", "quantifier": "all numbers of tones, amplitudes, phases, windows of limited band, FFT lengths, thresholds that keep the tones' cells, penalties, bandwidths, schedules, devices, get_w, flipud; hop 1, periodic padding", "why_tests_cant": "Ranges over all numbers of tones, windows and schedules of the parallel loops.", "anchors": ["ssqueezepy/_ssq_stft.py: ssq_stft, issq_stft", "ssqueezepy/ridge_extraction.py: extract_ridges"]}
{"id": "C169", "title": "The argument `parallel` decides whether several threads are used", "statement": "Functions with an argument `parallel` use several CPU threads if it is True and one if it is False; without it, those that follow the global switch (configs, SSQ_PARALLEL) obey that. Tensors are processed by the GPU whatever the argument. (What holds: indexed_sum, replace_under_abs and zero_denormals do so. The phase transforms, buffer, indexed_sum_onfly and ssqueeze_fast of the CWT use several threads if the argument or the switch asks for it; ssqueeze_fast of the STFT never does; find_closest does if asked to and `smart` is not set; extract_ridges obeys its argument.)", "quantifier": "all functions with the argument, values of the argument and of the switch", "why_tests_cant": "Which compiled function runs cannot be seen from its results (C01), so tests of results do not notice.", "anchors": ["ssqueezepy/algos.py: indexed_sum, ssqueeze_fast, indexed_sum_onfly, find_closest, replace_under_abs, zero_denormals, phase_cwt_cpu, phase_stft_cpu", "ssqueezepy/utils/stft_utils.py: buffer", "ssqueezepy/ridge_extraction.py: extract_ridges"]}
{"id": "C170", "title": "Rounding errors of istft after stft are bounded", "statement": "Compute stft and then istft with FFTs whose errors are at most eta times the size of their results and with additions, products, powers and quotients of relative error u (for IEEE double precision without overflow u = 2^-53). Let R bound the sizes of the windowed frames and K be the number of frames over a sample. Wherever the sum of the window's powers, less its own rounding error, exceeds the threshold, the result differs from the signal by at most (1+u) (((1+u)^(K+2) (1+eps) - 1) R A + ((1+u)^(K+1) - 1) P |x|) / D + u |x|, with 1+eps = (1+eta)(1+sqrt(2) eta)(1+u), A and P the sums of powers of the taps over the sample, and D that lower bound of the norm. With exact arithmetic the bound is zero.", "quantifier": "all signals, windows (of any sign), FFT lengths from 3, hops, paddings, modulated or not, window exponents, operations with bounded errors", "why_tests_cant": "Ranges over all signals and all FFT implementations with the given accuracy.", "anchors": ["ssqueezepy/_stft.py: stft, istft", "ssqueezepy/utils/stft_utils.py: buffer, unbuffer, window_norm"]}
{"id": "C171", "title": "Rounding errors of issq_cwt(ssq_cwt(x)) are bounded, whatever frequencies were computed", "statement": "Compute ssq_cwt and then issq_cwt with FFTs of relative error eta and operations of relative error u, with wavelet samples and step weights known up to relative errors v and u. Whatever frequency the phase transform computed for each cell (only that it treats cells clearly above and clearly below the threshold gamma as such), whichever row it was taken to, for every order of the parallel iterations and of the final sums: every sample of the result differs from the result in exact arithmetic by at most |2/css| times the sum over the scales i of |mu_i| ((1+u)^(2M+3) - 1) (R + e) + (1+u) d_i, where R bounds the transform, e = ((1+eta)^2 (1+u) (1+v) - 1) R is the error of a cell, and d_i is e for cells kept in any case, nothing for cells dropped in any case, and gamma + e for those within e of the threshold. Frequencies computed wrongly do no harm to the inverse.", "quantifier": "all signals, paddings, wavelets, scales, frequencies computed for the cells, maps of frequencies to rows, schedules, orders of sums, operations with bounded errors", "why_tests_cant": "Ranges over all signals, all FFT implementations with the given accuracy and all schedules.", "anchors": ["ssqueezepy/_ssq_cwt.py: ssq_cwt, issq_cwt", "ssqueezepy/algos.py: indexed_sum_onfly, ssqueeze_fast", "ssqueezepy/_cwt.py: cwt"]}
{"id": "C172", "title": "Rounding errors of stft and of issq_stft(ssq_stft(x)) are bounded, whatever frequencies were computed", "statement": "With FFTs of relative error eta and operations of relative error u, every entry of stft differs from the exact one by at most ((1+eta)(1+u) - 1) sqrt(n_fft) R, where R bounds the sizes of the windowed frames. Compute ssq_stft and then issq_stft in such arithmetic: whatever frequency the phase transform computed for each cell, whichever row it was taken to, for every order of the parallel iterations and of the final sums, every sample of the result differs from the result in exact arithmetic by at most |2/w_c| times the sum over the bins of the step of the frequencies times (((1+u)^(2M+3) - 1) (B + e) + (1+u) d_i), with B = sqrt(n_fft) R, e the error of an entry, and d_i as for the CWT (e for cells kept in any case, nothing for cells dropped in any case, gamma + e for those within e of the threshold).", "quantifier": "all signals, paddings, windows, FFT lengths, sampling rates, frequencies computed for the cells, maps of frequencies to rows, schedules, orders of sums, operations with bounded errors; for the inverse hop 1, modulated", "why_tests_cant": "Ranges over all signals, all FFT implementations with the given accuracy and all schedules.", "anchors": ["ssqueezepy/_stft.py: stft", "ssqueezepy/_ssq_stft.py: ssq_stft, issq_stft", "ssqueezepy/algos.py: indexed_sum_onfly, ssqueeze_fast"]}
{"id": "C173", "title": "The mean of the signal does not matter to cwt and ssq_cwt, and moves every frame of stft alike", "statement": "cwt and ssq_cwt of x + c return exactly what they return for x (transform, scales, derivative, frequencies), for every constant c and every wavelet which vanishes at frequency zero, which all wavelets of the package do (gmw for all arguments; morlet for mu > 0; bump for mu >= .999 s; cmhat and hhhat for mu >= 0). stft of x + c differs from that of x at bin k of every frame by c times the window's discrete Fourier transform at k. Expected for every padtype; true for all but 'zero'.", "quantifier": "all signals, constants, paddings, scales, wavelets vanishing at zero, windows, hops, FFT lengths", "why_tests_cant": "Ranges over all signals and constants.", "anchors": ["ssqueezepy/_cwt.py: cwt", "ssqueezepy/_ssq_cwt.py: ssq_cwt", "ssqueezepy/_stft.py: stft", "ssqueezepy/utils/common.py: padsignal", "ssqueezepy/wavelets.py: gmw, morlet, bump, cmhat, hhhat"]}
{"id": "C174", "title": "A longer hop only skips columns", "statement": "With n_fft given, stft(x, hop_len=h) consists of the columns 0, h, 2h, ... of stft(x, hop_len=1), (N-1)//h + 1 in all; so does its derivative. If ssq_stft(x, hop_len=1) succeeds, so does ssq_stft(x, hop_len=h), with the same frequencies, and its Tx and Sx consist of those columns (a user's squeezing function must treat columns one by one).", "quantifier": "all signals, hops, windows, paddings, FFT lengths, thresholds, squeezing modes, devices", "why_tests_cant": "Ranges over all signals and hops.", "anchors": ["ssqueezepy/_stft.py: stft", "ssqueezepy/_ssq_stft.py: ssq_stft", "ssqueezepy/utils/stft_utils.py: buffer", "ssqueezepy/ssqueezing.py: ssqueeze"]}
{"id": "C175", "title": "Padding a torch tensor gives what padding the array gives, or raises", "statement": "padsignal of a torch tensor: with padtype 'zero' it returns what it returns for the array with the same samples; with 'reflect' it returns that if the padding is shorter than the signal, and raises otherwise; any other padtype raises ValueError. To the default length (so in cwt) 'reflect' raises for signals of exactly 1 and 3 samples; for frames (so in stft) exactly if n_fft//2 >= N. Expected: tensors are padded like arrays whatever the length; false because torch refuses reflections of the signal's length and more.", "quantifier": "all signals, pad types, pad lengths not shorter than the signal", "why_tests_cant": "Ranges over all signal lengths and pad lengths.", "anchors": ["ssqueezepy/utils/common.py: padsignal, p2up", "ssqueezepy/_cwt.py: cwt", "ssqueezepy/_stft.py: stft"]}
{"id": "C176", "title": "Energies of the transforms, and stability of cwt", "statement": "Each column of stft has n_fft times the energy of the windowed frame, counting twice the bins that stand for two; with padtype='wrap' and hop 1 the whole transform has n_fft times the energy of the window times that of the signal. Each row of cwt has the energy of the padded signal's spectrum times the sampled wavelet's (times the scale if l1_norm=False; at most that if the padding is removed from the result), so at most C^2 times the energy of the padded signal if the wavelet is bounded by C. Without padding or with zero padding the rows of the transforms of two signals differ, in root mean square, by at most C times the difference of the signals.", "quantifier": "all signals, windows, hops, FFT lengths, modulated or not; all wavelets, scales, paddings, norms", "why_tests_cant": "Ranges over all signals.", "anchors": ["ssqueezepy/_stft.py: stft", "ssqueezepy/_cwt.py: cwt", "ssqueezepy/utils/fft_utils.py: fft, ifft, rfft"]}
{"id": "C177", "title": "Which calls ssqueeze, ssq_cwt and ssq_stft refuse", "statement": "ssqueeze raises ValueError if w is missing together with dWx or gamma, and if w has a negative entry. A call that succeeds with given frequencies raises ValueError if asked instead to compute piecewise logarithmic ones (by name, or by default because the scales are) with maprange='maximal' or a tuple, in ssqueeze and in ssq_cwt; with maprange='maximal' and ssq_freqs='log' or 'linear' it succeeds and returns one frequency per scale, from half the sampling rate down to one cycle in the signal. ssq_stft raises ValueError for given frequencies that are not taken as linear, whenever the rest of the call is in order.", "quantifier": "all transforms, phases, scales, ranges and frequency arguments", "why_tests_cant": "Combinations of arguments with all arrays.", "anchors": ["ssqueezepy/ssqueezing.py: ssqueeze, _ssq_freqrange, _compute_associated_frequencies", "ssqueezepy/_ssq_cwt.py: ssq_cwt", "ssqueezepy/_ssq_stft.py: ssq_stft"]}
{"id": "C178", "title": "A longer FFT only adds bins between those of a shorter one", "statement": "With the same window taps (win_len given, or the window an array), multiplying n_fft by c keeps the columns of stft's Sx: bin k of the shorter transform is bin c*k of the longer one, exactly with modulated=True, and up to a factor of modulus one otherwise. The two lengths must have the same parity, or the window an even number of taps, so that the window sits at the same place.", "quantifier": "all signals, windows, window lengths, hops, FFT lengths, factors, paddings", "why_tests_cant": "Ranges over all signals and lengths.", "anchors": ["ssqueezepy/_stft.py: stft, get_window", "ssqueezepy/utils/stft_utils.py: buffer", "ssqueezepy/utils/common.py: padsignal"]}
{"id": "C179", "title": "The inverse transforms are linear", "statement": "istft, icwt (with one or two integrals, jointly in the transform and x_mean), issq_cwt and issq_stft (of the whole transform or per component) of a S + b T equal a times the inverse of S plus b times the inverse of T, for real a and b and arrays S and T of one shape with the same other arguments, whenever both calls succeed; so the call on the combination succeeds too.", "quantifier": "all transforms S and T of one shape, real factors, windows, hops, window exponents, scales, wavelets, components", "why_tests_cant": "Ranges over all pairs of arrays and factors, including arrays which are no transform of any signal.", "anchors": ["ssqueezepy/_stft.py: istft", "ssqueezepy/_cwt.py: icwt", "ssqueezepy/_ssq_cwt.py: issq_cwt", "ssqueezepy/_ssq_stft.py: issq_stft"]}
{"id": "C180", "title": "istft of a modified transform is the least-squares estimate", "statement": "For any array S of the shape of an STFT (n_fft >= 3), e.g. a transform with masked cells, istft with the default win_exp=1 returns the samples of a signal whose STFT is closest to S in energy (bins that stand for two counted twice): no signal comes closer, and one that comes as close has the same samples wherever a nonzero tap of the window reaches. The sums of squared taps over the frames must exceed the smallest float or vanish.", "quantifier": "all complex arrays, windows, hops, FFT lengths, lengths N with as many hops as columns, modulated or not; all competing signals", "why_tests_cant": "The competitor ranges over all signals, S over all arrays.", "anchors": ["ssqueezepy/_stft.py: istft", "ssqueezepy/utils/stft_utils.py: unbuffer, window_norm"]}
{"id": "C181", "title": "A row of the transform depends on its own scale only", "statement": "Two calls of cwt on the same signal that differ in the scales (in number, order or type) or in the code path have the same row of Wx and of dWx wherever they have the same scale; with l1_norm=False the row is sqrt(scale) times the row with l1_norm=True.", "quantifier": "all signals, wavelets, paddings, pairs of arrays of scales, sampling rates", "why_tests_cant": "Ranges over all pairs of arrays of scales and all signals.", "anchors": ["ssqueezepy/_cwt.py: cwt", "ssqueezepy/wavelets.py: Wavelet.psih, Wavelet.Psih"]}
{"id": "C182", "title": "Reversing the signal reverses its STFT", "statement": "With a window that is symmetric about its centre tap (its first tap zero if n_fft is even), modulated=True (the default) and a hop that divides len(x) - 1 (as hop 1 does), reversing the signal reverses the columns of stft's Sx and conjugates them; dSx likewise with a minus sign; and ssq_stft's Tx likewise over the same frequencies.", "quantifier": "all signals, symmetric windows, FFT lengths, hops as stated, every padtype, thresholds, frequency grids", "why_tests_cant": "Ranges over all signals and windows.", "anchors": ["ssqueezepy/_stft.py: stft, get_window", "ssqueezepy/_ssq_stft.py: ssq_stft, phase_stft", "ssqueezepy/utils/common.py: padsignal"]}
{"id": "C183", "title": "How well the inverse CWT recovers the signal", "statement": "For a wavelet that is zero at frequencies <= 0, rises to a peak P and falls (all bandpass Morse wavelets of order 0), and scales with at least n voices per octave (one or two densities), icwt(cwt(x)) - or issq_cwt(ssq_cwt(x)) when no cell is below the threshold - returns x, less the mean of the padded signal and plus x_mean, up to an error whose energy is at most ((P log 2 / n + d)/C)^2 of that of the padded signal. C is the admissibility constant and d its distance from the integral of psi(w)/w over the part of the axis the scales cover. The same holds for the two-integral inverse, one density of scales and 2^m samples taken as periodic, with P^2 and psi(w)^2. With the exact constant the error goes to zero as n grows and the scales reach further; for Morse wavelets the constant is (2/gamma) Gamma(beta/gamma) (e gamma/beta)^(beta/gamma).", "quantifier": "all signals, paddings, such wavelets, such scales, norms, sampling rates, constants", "why_tests_cant": "An error bound for every signal and grid, and a limit over all finer grids.", "anchors": ["ssqueezepy/_cwt.py: cwt, icwt", "ssqueezepy/_ssq_cwt.py: ssq_cwt, issq_cwt", "ssqueezepy/_gmw.py: gmw", "ssqueezepy/utils/cwt_utils.py: adm_ssq"]}
{"id": "C184", "title": "Evaluating a wavelet leaves the frequencies alone", "statement": "wavelet(w) changes no array: neither w nor any other one; it returns the wavelet's values at the entries of w, and the same ones when called again with the same array.", "quantifier": "all wavelets (Morse of any order and norm, centred or not; the others), arrays of frequencies on the host or the GPU, dtypes, contents of memory", "why_tests_cant": "Aliasing between the caller's array and the one the kernel overwrites depends on dtypes and devices, and must be excluded for all memory states.", "anchors": ["ssqueezepy/wavelets.py: Wavelet.__call__", "ssqueezepy/_gmw.py: gmw_l1, _gmw_l1, gmw_l2, gmw_l1_k, gmw_l2_k", "ssqueezepy/utils/backend.py: asarray, atleast_1d"]}
{"id": "C185", "title": "Accuracy of the admissibility constants", "statement": "For a function that rises to a largest value P and falls from there, the numerical integral behind adm_ssq and adm_cwt equals its integral from 1e-15 to some T between 0.1 and 160 up to P/130; without the warning the function is below 1e-15 from T + 0.002 on, and there is no warning if it exceeds 1e-5 over some [u, u + 0.002] up to 20 and is below 1e-15 at 18. For the bandpass Morse wavelets of order 0 with gamma >= 1, adm_ssq (beta > 1) and adm_cwt (beta > 1/2), given without a warning, are the exact integrals over (0, infinity) of psi(w)/w and psi(w)^2/w, namely (2/gamma) Gamma(beta/gamma) (e gamma/beta)^(beta/gamma) and (4/gamma) Gamma(2 beta/gamma) (e gamma/(2 beta))^(2 beta/gamma), up to 1/80 of the largest value of the integrand. The default wavelet gets no warning.", "quantifier": "all such functions, gamma, beta, with or without centered_scale", "why_tests_cant": "The error bound must hold for every wavelet and its parameters.", "anchors": ["ssqueezepy/utils/cwt_utils.py: adm_ssq, adm_cwt, integrate_analytic", "ssqueezepy/_gmw.py: gmw"]}
{"id": "C186", "title": "The rows of the transform are analytic signals", "statement": "For a real wavelet that is zero at frequencies <= 0 (all Morse wavelets), the untrimmed rows of cwt (rpadded=True or padtype=None) have no zero and no negative frequencies; each row of Wx is the analytic signal (as scipy.signal.hilbert gives it) of its own real part; and each row of dWx is the spectral time derivative, in units of fs, of the row of Wx.", "quantifier": "all signals, such wavelets, scales, norms, paddings, code paths", "why_tests_cant": "Ranges over all signals, wavelets and scales.", "anchors": ["ssqueezepy/_cwt.py: cwt", "ssqueezepy/wavelets.py: Wavelet.psih"]}
{"id": "C187", "title": "Ridges in floating point", "statement": "Ridge tracking in floating-point arithmetic (relative error u per addition) finds a ridge whose total cost (costs of its cells plus penalties of its jumps) is that of the cheapest row sequence up to a bounded excess: the machine epsilon and a few rounding errors per column. Its rows are valid whatever the rounding.", "quantifier": "all costs, penalties, numbers of rows and columns (at least as many columns as rows), roundings, orders of the parallel iterations", "why_tests_cant": "Rounding decides in each cell whether the backward pass recognises the predecessor the forward pass chose; it must be bounded for all inputs.", "anchors": ["ssqueezepy/ridge_extraction.py: extract_ridges, _accumulated_penalty_energy_fw, _accumulated_penalty_energy_bw"]}
{"id": "C188", "title": "Amplitude, phase and scale of a tone", "statement": "For a tone A cos(wt + phi) with a whole number of cycles (no padding) and a real analytic wavelet with one peak P at p, every row of Wx is a phasor in phase with the tone whose modulus is constant over time: |A|/2 times the wavelet at scale times w (times sqrt(scale) if l1_norm=False). With l1_norm=True the modulus is at most |A| P/2, equal to it at the scale p/w, and does not grow away from that scale. With bandpass Morse wavelets of order 0 it equals |A| at the scale of the peak frequency and is smaller at every other scale.", "quantifier": "all amplitudes, phases, frequencies below half the rate, lengths, scales, such wavelets", "why_tests_cant": "Ranges over all tones and scales.", "anchors": ["ssqueezepy/_cwt.py: cwt", "ssqueezepy/_gmw.py: gmw", "ssqueezepy/wavelets.py: Wavelet"]}
{"id": "C189", "title": "Signals are determined by their transforms", "statement": "Two signals of the same length with the same untrimmed Wx (rpadded=True or padtype=None) differ by a constant, if at every positive frequency of the padded signal the wavelet at some scale is not zero; with Morse wavelets of order 0 a single row suffices. Two signals with the same Sx have the same samples wherever a nonzero tap of the window reaches.", "quantifier": "all pairs of signals, scales, wavelets, windows, hops, paddings", "why_tests_cant": "Ranges over all pairs of signals.", "anchors": ["ssqueezepy/_cwt.py: cwt", "ssqueezepy/_stft.py: stft"]}
{"id": "C190", "title": "Squeezing moves, it does not add", "statement": "In every column of the squeezed transform, the moduli sum to at most the moduli of the transform's cells that have a finite phase, each times the weight of its row; and there are at most as many nonzero rows as nonzero cells with a finite phase. For a CWT over logarithmic scales with nv voices: sum_r |Tx[r, j]| <= (ln 2/nv) sum_i |Wx[i, j]|.", "quantifier": "all inputs, frequencies (usable or not), squeezing measures, flipud, devices, two-pass or fused", "why_tests_cant": "Ranges over all transforms and phases.", "anchors": ["ssqueezepy/ssqueezing.py: ssqueeze", "ssqueezepy/algos.py: indexed_sum_onfly, ssqueeze_fast"]}
{"id": "C191", "title": "The STFT at zero frequency and at half the rate", "statement": "Row 0 of stft is the moving sum of the padded signal weighted by the window, modulated or not; for even n_fft the last row is the moving sum with alternating signs. Both rows are real.", "quantifier": "all signals, windows, hops, paddings", "why_tests_cant": "Ranges over all signals and windows.", "anchors": ["ssqueezepy/_stft.py: stft", "ssqueezepy/utils/stft_utils.py: buffer"]}
{"id": "C192", "title": "The centre frequency and the frequency width of a wavelet stay in the band", "statement": "center_frequency(kind='energy') lies between minus and plus the Nyquist frequency pi, and freq_resolution(nondim=False) is at most 2 pi, for every wavelet, scale and length.", "quantifier": "every wavelet, scale and length", "why_tests_cant": "Ranges over all wavelets and lengths; tests use the even default lengths.", "anchors": ["ssqueezepy/wavelets.py: center_frequency, freq_resolution, aifftshift"]}
{"id": "C193", "title": "What the penalty of extract_ridges does", "statement": "On the same transform, the first ridge found with a greater penalty is not rougher (sum of squared jumps in log scale, or in frequency) than the one found with a smaller penalty, and is not stronger in log energy, up to machine epsilon per column. If the penalty of the smallest jump exceeds the number of columns times log(1/eps) + 2 eps, the first ridge stays on one row.", "quantifier": "all transforms without silent columns and with at least as many columns as rows, penalties, scales, serial and all parallel orders", "why_tests_cant": "Ranges over all transforms, pairs of penalties and schedules.", "anchors": ["ssqueezepy/ridge_extraction.py: extract_ridges"]}
{"id": "C194", "title": "Periodic signals, and padding before the transform", "statement": "Without padding, with an array of scales and a real wavelet, cwt of a signal repeated m times is cwt of the signal repeated m times, derivative included. With an array of scales, cwt with padding returns what cwt without padding returns for the output of padsignal: all of it with rpadded=True, otherwise the samples where the signal lies. The calls fail alike.", "quantifier": "all signals, numbers of repetitions, wavelets, arrays of scales, paddings, norms, code paths", "why_tests_cant": "Ranges over all signals and repetitions.", "anchors": ["ssqueezepy/_cwt.py: cwt", "ssqueezepy/utils/common.py: padsignal", "ssqueezepy/wavelets.py: Wavelet, _xifn"]}
{"id": "C195", "title": "The CWT convolves with the time-domain wavelet", "statement": "Every value of cwt is the sum of the samples of the padded signal, each times Wavelet.psifn of that scale centred on that sample, circularly (times sqrt(scale) if l1_norm=False). In particular the transform of an impulse is the time-domain wavelet moved to the impulse.", "quantifier": "all signals, real wavelets, scales, positions; all paddings, or none and an even length", "why_tests_cant": "Ranges over all signals and wavelets.", "anchors": ["ssqueezepy/_cwt.py: cwt", "ssqueezepy/wavelets.py: Wavelet.psifn"]}
{"id": "C196", "title": "Asking for more ridges", "statement": "With the same schedule the first n of m ridges of extract_ridges are exactly the n ridges found when only n are asked for (rows, scales and energies). The ridges after the first are the ridges of the transform whose cells around the first ridge have been set to zero.", "quantifier": "all transforms, penalties, bandwidths, scales, numbers of ridges, serial and parallel orders", "why_tests_cant": "Ranges over all transforms, ridge counts and schedules.", "anchors": ["ssqueezepy/ridge_extraction.py: extract_ridges"]}
{"id": "C197", "title": "Locality of the CWT and edge effects", "statement": "For two signals of one length, with any two padding types, the transforms at a scale and sample differ by at most the sum of the differences of the padded samples, each times the modulus of psifn at its circular distance from that sample. In particular, if psifn of a scale is at most eps beyond R samples from its centre, changing padtype changes the transform at least R samples from both ends by at most eps times the sum of the differences of the padding samples (times sqrt(scale) if l1_norm=False).", "quantifier": "all signals, pairs of padding types, real wavelets, scales, samples", "why_tests_cant": "Ranges over all signals and wavelets.", "anchors": ["ssqueezepy/_cwt.py: cwt", "ssqueezepy/utils/common.py: padsignal", "ssqueezepy/wavelets.py: Wavelet.psifn"]}
{"id": "C198", "title": "Raising the threshold gamma", "statement": "Raising gamma of ssq_cwt (or ssq_stft) leaves the transform, its derivative, the scales and the frequencies as they are. A column of Tx changes, all rows together, by at most the sum of the moduli of the cells between the two thresholds, each times its d(scale)/scale (the frequency step for the STFT). The result of issq_cwt changes by at most 2/css times that.", "quantifier": "all signals, squeezing 'sum' or 'abs', pairs of thresholds, wavelets, scales, frequencies, devices, two-pass or fused", "why_tests_cant": "Ranges over all signals and thresholds.", "anchors": ["ssqueezepy/_ssq_cwt.py: ssq_cwt, issq_cwt", "ssqueezepy/_ssq_stft.py: ssq_stft", "ssqueezepy/ssqueezing.py: ssqueeze"]}
{"id": "C199", "title": "Noise of the signal-to-noise ratio asked for", "statement": "TestSignals.make_signals with snr adds noise whose variance is that of the signal over 10^(snr/10), up to the variance of the random numbers drawn, and reports the ratio of signal and noise actually added. (Full claim: for every snr.)", "quantifier": "all signals, SNRs and random numbers", "why_tests_cant": "Real-valued signals and SNRs; tests use one SNR.", "anchors": ["ssqueezepy/_test_signals.py: TestSignals.make_signals, TestSignals.__init__"]}
{"id": "C200", "title": "Carrier, modulator and reversal in make_signals", "statement": "A signal named carrier:modulator is, sample by sample, the carrier times the modulator, which gets its own parameters and the carrier's time axis unless it has one of its own; a name with # adds the same signal reversed, so that the result is a palindrome. (Full claim: a modulator may be given a time axis.)", "quantifier": "all carriers, modulators, parameters", "why_tests_cant": "Ranges over all parameter dictionaries.", "anchors": ["ssqueezepy/_test_signals.py: TestSignals.make_signals"]}
{"id": "C201", "title": "Ridges follow components that move", "statement": "If in every column the row p(t) has at least 1/rho times the (remaining) energy of every other row, and twice the penalty of the largest jump of p is below log((1+eps)/(rho+eps)) less eps per column, extract_ridges returns p as that ridge. If several such row sequences are ranked by strength and stay more than bw rows apart, the ridges are these sequences in that order, with their rows' scales and the transform's energies.", "quantifier": "every transform with at least as many columns as rows, jump penalty >= 0, bandwidth >= 0, number of ridges, row sequences, and order of the parallel iterations", "why_tests_cant": "A test follows one chirp. That following depends on the margin against the jumps only, for every path, needs an exchange argument over all row sequences.", "anchors": ["ssqueezepy/ridge_extraction.py: extract_ridges, _accumulated_penalty_energy_fw, _accumulated_penalty_energy_bw"]}
{"id": "C202", "title": "The sampling rate does not matter as long as it is high enough", "statement": "If the spectrum of x vanishes from the Nyquist frequency of x[::d] on, cwt(x) at rate fs with d times the scales equals, at the samples both have, cwt(x[::d]) at rate fs/d (times sqrt(d) with the L2 norm), derivative included; ssq_cwt over the same frequencies returns the same Tx there, whatever measure and threshold, if the scales are recognized alike.", "quantifier": "all band-limited signals, factors d, rates, arrays of scales and frequencies, real-spectrum wavelets, norms, squeezings computed cell by cell, devices; no padding", "why_tests_cant": "Ranges over all signals and rates; a test compares one resampled signal within a tolerance.", "anchors": ["ssqueezepy/_cwt.py: cwt", "ssqueezepy/_ssq_cwt.py: ssq_cwt", "ssqueezepy/ssqueezing.py: ssqueeze"]}
{"id": "C203", "title": "Turning a transform upside down turns its ridges upside down", "statement": "Where each ridge's row sequence is cheaper than every other by more than the tolerance, extract_ridges(Tf[::-1], scales[::-1]) returns the ridges of extract_ridges(Tf, scales) with row r renamed to n-1-r; more generally for every reordering of rows and scales, with equal scales and energies.", "quantifier": "all transforms with at least as many columns as rows, penalties, bandwidths, numbers of ridges, reorderings and orders of the parallel iterations", "why_tests_cant": "Ranges over all transforms and permutations; flipping is what users do between conventions, and the clearing of rows is not symmetric.", "anchors": ["ssqueezepy/ridge_extraction.py: extract_ridges"]}
{"id": "C204", "title": "Playing a transform backwards plays its ridges backwards", "statement": "Where each ridge's row sequence is cheaper than every other by more than the tolerance, extract_ridges(Tf[:, ::-1], scales) returns the ridges of extract_ridges(Tf, scales) with their columns reversed: rows, scales and energies, for all ridges.", "quantifier": "all transforms with at least as many columns as rows, penalties, bandwidths, numbers of ridges and orders of the parallel iterations", "why_tests_cant": "Ranges over all transforms; the tracking itself runs forwards and then backwards and is not symmetric in time.", "anchors": ["ssqueezepy/ridge_extraction.py: extract_ridges"]}
{"id": "C205", "title": "The ridge of a synchrosqueezed transform is the instantaneous frequency", "statement": "If around every time the signal resembles some tone (amplitude, phase and frequency may change with time) closely enough that only one row is nearest to the frequencies in question, and no column of Tx is empty, the first ridge of extract_ridges(Tx) is at every time the row nearest to that frequency, with the energies of Tx; for ssq_cwt (linear and log frequencies) and ssq_stft.", "quantifier": "all signals, paddings, analytic wavelets or band-limited windows, thresholds, hops, devices, penalties within the margin, orders of the parallel iterations", "why_tests_cant": "Ranges over all signals and the interaction of three functions; tests compare ridges of a few chirps within tolerances.", "anchors": ["ssqueezepy/_ssq_cwt.py: ssq_cwt", "ssqueezepy/_ssq_stft.py: ssq_stft", "ssqueezepy/ridge_extraction.py: extract_ridges"]}
{"id": "C206", "title": "Slowly varying amplitudes and frequencies are measured correctly", "statement": "For x[q] = am(q) cos(theta(q)) with |am'| <= alpha and a frequency omega = theta' changing by at most B per sample, the phase transform of ssq_cwt at every kept cell of sample p is fs omega(p)/(2 pi), up to half an FFT bin and to (alpha + am(p) pi/N) times the first moment plus am(p) B times the second moment of the wavelet's kernel, divided by the cell's magnitude. The same holds for ssq_stft in every frame inside of the signal; and where this singles out one row per column, the ridge of Tx is that row.", "quantifier": "all amplitude and phase laws, samples, analytic wavelets, scales, rates, norms, band-limited windows, hops, thresholds; cwt without padding", "why_tests_cant": "Ranges over all amplitude and frequency laws; tests try a few chirps within tolerances. This is the class of signals for which synchrosqueezing is meant.", "anchors": ["ssqueezepy/_cwt.py: cwt, phase_cwt", "ssqueezepy/_ssq_cwt.py: ssq_cwt", "ssqueezepy/_ssq_stft.py: ssq_stft, phase_stft", "ssqueezepy/ridge_extraction.py: extract_ridges"]}
{"id": "C207", "title": "Wavelet.viz draws what is asked for, or nothing", "statement": "viz(name) draws every name of Wavelet.VISUALS. With keywords: a name of VISUALS is drawn once, with the user's keywords, and with the wavelet itself and its length unless given, exactly if the keywords are all documented for it; otherwise nothing is drawn and TypeError or ValueError raised. Other names raise ValueError. viz() draws its four visuals in order for keywords wavelet and N only; with another keyword it raises TypeError at the first visual not documenting it, after drawing those before.", "quantifier": "all wavelets, names and keyword dictionaries", "why_tests_cant": "Ranges over all names and sets of keywords; tests call each visual once with suitable keywords.", "anchors": ["ssqueezepy/wavelets.py: Wavelet.viz, Wavelet._viz, VISUALS", "ssqueezepy/visuals.py: sweep_std_t, sweep_std_w, signatures of the visuals"]}
{"id": "C208", "title": "Filtering a signal filters its transform", "statement": "Without padding, the CWT of a circular convolution h * x is the CWT of x with every row, and every row of the derivative, convolved with h; scales are the same, and one raises exactly if the other does.", "quantifier": "all signals, filters of the signal's length, wavelets, scales, rates, norms, vectorized or not", "why_tests_cant": "Ranges over all signals and filters.", "anchors": ["ssqueezepy/_cwt.py: cwt"]}
{"id": "C209", "title": "The normalization of the wavelet", "statement": "A wavelet multiplied by c > 0 gives c times the CWT and its derivative, with the same scales and the same exceptions; to ssq_cwt multiplying the wavelet is the same as multiplying the signal, and with gamma multiplied by c, Tx is multiplied by c over the same frequencies. The inverses stay as they are, since the admissibility constant is multiplied by c too.", "quantifier": "all signals, real or complex wavelets, factors, scales, paddings, norms, vectorized or not", "why_tests_cant": "Ranges over all wavelets and factors; includes the decision to drop a small imaginary part, made by sums over all samples.", "anchors": ["ssqueezepy/wavelets.py: Wavelet.psih, Wavelet._halve_nyquist", "ssqueezepy/_cwt.py: cwt, icwt", "ssqueezepy/_ssq_cwt.py: ssq_cwt", "ssqueezepy/utils/cwt_utils.py: adm_ssq, integrate_analytic"]}
{"id": "C210", "title": "Squeezing keeps frequencies in order", "statement": "A cell with a lower measured frequency is never moved to a row of higher frequency than a cell with a higher measured frequency: over the whole transform, and across the two segments of a piecewise grid; likewise with flipud, rows reversed. For the kernels that get the phase transform and for those that compute it.", "quantifier": "all transforms, phase transforms, thresholds, linear, log and two-segment grids, devices, orders of the parallel iterations", "why_tests_cant": "Ranges over all cells and grids; tests compare Tx with a reference on a few signals.", "anchors": ["ssqueezepy/algos.py: indexed_sum_onfly, ssqueeze_fast, find_closest", "ssqueezepy/utils/cwt_utils.py: logscale_transition_idx"]}
{"id": "C211", "title": "A uniform time vector states the sampling rate and nothing else", "statement": "cwt, ssq_cwt (any order, any differentiation) and ssq_stft with t = t0, t0 + d, t0 + 2d, ... give what they give with fs = 1/d, whatever t0 and whatever fs was passed too, exceptions included. Shifting any time vector, uniform or not, changes nothing.", "quantifier": "all signals of at least three samples, first times, steps, wavelets, windows, arguments", "why_tests_cant": "Ranges over all origins and rates, for all other arguments.", "anchors": ["ssqueezepy/utils/cwt_utils.py: _process_fs_and_t", "ssqueezepy/_cwt.py: cwt", "ssqueezepy/_ssq_cwt.py: ssq_cwt", "ssqueezepy/_ssq_stft.py: ssq_stft"]}
{"id": "C212", "title": "Multiplying by a carrier shifts the STFT in frequency", "statement": "For x'[n] = x[n] cos(2 pi k0 n/m + phi), m the length of the FFT, bin k of frame j of stft(x') is (e^{i psi} S[k-k0, j] + e^{-i psi} S[k+k0, j])/2 with S = stft(x), k0 <= k, k + k0 <= m/2, and psi the phase of the carrier at the frame's centre (modulated) or start. The derivative obeys the same law. With zero padding, or periodic padding and whole cycles, in every frame; with any padding in frames inside the signal.", "quantifier": "all signals, windows, FFT lengths, hops, carriers, phases, paddings, frames and bins", "why_tests_cant": "Ranges over all signals, carriers and windows.", "anchors": ["ssqueezepy/_stft.py: stft, _stft, get_window"]}
{"id": "C213", "title": "Switching between CPU and GPU", "statement": "cwt with a Wavelet instance returns a result computed on the device in use, with the wavelet sampled for its signal length and scales, whatever calls were made with that instance before and on which device.", "quantifier": "all histories of calls and switches of SSQ_GPU, signal lengths, scales, vectorized, cache_wavelet, derivative", "why_tests_cant": "Ranges over all histories; tests run in a process that uses one device.", "anchors": ["ssqueezepy/_cwt.py: cwt", "ssqueezepy/wavelets.py: Wavelet.Psih, Wavelet.N", "ssqueezepy/utils/backend.py: allclose, asarray", "ssqueezepy/configs.py: USE_GPU"]}
{"id": "C214", "title": "cwt in several threads", "statement": "Threads that call cwt at the same time, with Wavelet instances of their own or with a shared one, each get the transform for their own signal length and scales, under every schedule; every call ends.", "quantifier": "all schedules, numbers of threads, calls, wavelets and their caches", "why_tests_cant": "Depends on the interleaving of attribute accesses; tests cannot enumerate schedules.", "anchors": ["ssqueezepy/_cwt.py: cwt", "ssqueezepy/wavelets.py: Wavelet.Psih, Wavelet.N, Wavelet.xifn"]}
{"id": "C215", "title": "The STFT of a periodic signal", "statement": "With padtype='wrap', n_fft given and a hop that divides the length, stft and ssq_stft of a signal repeated q times are those of the signal with the columns repeated q times, derivative included, over the same frequencies.", "quantifier": "all signals, repetitions, windows, hops dividing the length, thresholds, squeezing options, devices", "why_tests_cant": "Ranges over all signals and numbers of repetitions.", "anchors": ["ssqueezepy/_stft.py: stft", "ssqueezepy/_ssq_stft.py: ssq_stft"]}
{"id": "C216", "title": "Transforms are shown under their signals' titles", "statement": "TestSignals.test_transforms(fn, signals) shows every transform that fn returns, in order, under the title of the signal it was made from (unless fn gives a title).", "quantifier": "all functions fn, all lists of signals, all sharing of dictionaries between the returns of fn", "why_tests_cant": "Depends on the identity of the dictionaries fn returns over the whole history of calls, which no finite set of functions covers.", "anchors": ["ssqueezepy/_test_signals.py: TestSignals.test_transforms"]}
{"id": "C217", "title": "ridgecomp draws ridges where they were found, in a figure of the size asked for", "statement": "TestSignals.ridgecomp draws each ridge on the row of the image that shows the row of the transform the ridge was found on, for 'cwt' and 'stft', in a figure of size 12w by 12h.", "quantifier": "all transforms, all rows, all sizes", "why_tests_cant": "A figure is looked at, not compared; the offset must be excluded for every row and number of rows.", "anchors": ["ssqueezepy/_test_signals.py: TestSignals.ridgecomp, _ridgecomp_fn"]}
{"id": "C218", "title": "wavcomp draws the wavelets it is given, in the layout asked for", "statement": "TestSignals.wavcomp draws one row per wavelet, for one wavelet or several, given as instances or as anything Wavelet accepts; tight_kw of wavcomp and cwt_vs_stft is passed to plt.subplots_adjust.", "quantifier": "all numbers of wavelets, all ways of giving them, all tight_kw", "why_tests_cant": "Tests give two instances and no tight_kw; failures are with one wavelet, with names, and with every layout.", "anchors": ["ssqueezepy/_test_signals.py: TestSignals.wavcomp, _wavcomp_fn, cwt_vs_stft, _cwt_vs_stft_fn"]}
{"id": "C219", "title": "plot and scat draw the lines asked for", "statement": "vlines and hlines draw one line at each value given, with the options given: a number, a list of numbers, or either in a pair with a dictionary.", "quantifier": "all numbers, lists and options", "why_tests_cant": "A line that is missing raises nothing; the values that go missing have to be found among all numbers.", "anchors": ["ssqueezepy/visuals.py: plot, scat, _vhlines"]}
{"id": "C220", "title": "Complex signals", "statement": "cwt of a complex-valued signal is the transform of its real part plus i times that of its imaginary part, or the call raises. (Same for ssq_cwt and stft: what they return belongs to the whole signal.)", "quantifier": "all complex signals, wavelets, scales, paddings", "why_tests_cant": "Tests use real signals; that imaginary parts never matter is a statement about all of them.", "anchors": ["ssqueezepy/_cwt.py: cwt", "ssqueezepy/_stft.py: stft", "ssqueezepy/wavelets.py: _process_params_dtype", "ssqueezepy/utils/backend.py: asarray, astype"]}
{"id": "C221", "title": "The returned frequencies can be used in another call", "statement": "ssq_cwt, ssq_stft and ssqueeze called again with ssq_freqs set to the array of frequencies an earlier call returned reassign onto the same frequencies: each frequency's row holds what it held before.", "quantifier": "all signals, transforms, phase transforms, frequencies (linear or logarithmic), devices, two-pass or fused kernels", "why_tests_cant": "The second call succeeds and returns arrays of the right shape; where the energy goes depends on the signs of steps, for every input.", "anchors": ["ssqueezepy/ssqueezing.py: ssqueeze", "ssqueezepy/algos.py: _process_ssq_params, _get_params_find_closest_log, _ensure_nonzero_nonnegative", "ssqueezepy/_ssq_cwt.py: ssq_cwt"]}
{"id": "C222", "title": "More voices per octave only add rows", "statement": "Multiplying nv by an integer d keeps every logarithmic scale (make_scales, and cwt with scales='log' or 'log:preset') and adds d - 1 between neighbours: the former rows of the transform and of its derivative are among the new ones, unchanged.", "quantifier": "all lengths, bounds, nv, d, signals, wavelets, paddings", "why_tests_cant": "Whether the two grids share their scales depends on the roundings of nv times the logarithms of the bounds, for all bounds.", "anchors": ["ssqueezepy/utils/cwt_utils.py: make_scales, process_scales", "ssqueezepy/_cwt.py: cwt"]}
{"id": "C223", "title": "One row per given frequency", "statement": "With an array of frequencies, the synchrosqueezed transform has one row per frequency, and each row holds the cells nearest to the frequency returned for it.", "quantifier": "all arrays of frequencies of any length, transforms, phase transforms, devices", "why_tests_cant": "The shapes are consistent with the transform for every input, and no error is raised; which frequency a row stands for is only visible in the values, for all phases and lengths.", "anchors": ["ssqueezepy/ssqueezing.py: ssqueeze", "ssqueezepy/algos.py: indexed_sum_onfly, _process_ssq_params"]}
{"id": "C224", "title": "preserve_transform decides only whether Wx is kept; arguments are never written", "statement": "With preserve_transform=True (the default on the CPU), or with any named squeezing whatever preserve_transform is, the Wx (Sx), dWx (dSx), w and scales (Sfs) returned by ssq_cwt and ssq_stft hold exactly what the transform computed, whatever a squeezing function does to its argument. With preserve_transform=False and a squeezing function, the returned transform is what the function left in its argument. Tx and the frequencies are the same either way, and no array the caller had is changed by the call.", "quantifier": "all contents, all squeezing arguments including functions that write to their argument and return it or a new array, given or generated scales and frequencies, both devices, all flags", "why_tests_cant": "tests with the built-in squeezings never see the difference; a function that edits its argument in place is user code", "anchors": ["ssqueezepy/_ssq_cwt.py: ssq_cwt", "ssqueezepy/_ssq_stft.py: ssq_stft", "ssqueezepy/ssqueezing.py: ssqueeze"]}
{"id": "C225", "title": "Returned arrays are independent of each other and of the arguments", "statement": "Editing an array returned by ssq_cwt or ssq_stft in place changes no other returned array and no array the caller passed in. (False: with default arguments the ssq_freqs and Sfs returned by ssq_stft are one array; scales and ssq_freqs given as arrays are returned themselves or as views.)", "quantifier": "all calls on both devices, all pairs of returned arrays, all values assigned, all arrays that existed before the call", "why_tests_cant": "sharing shows only if someone writes to a returned array later", "anchors": ["ssqueezepy/_ssq_stft.py: ssq_stft", "ssqueezepy/_ssq_cwt.py: ssq_cwt", "ssqueezepy/_cwt.py: cwt", "ssqueezepy/ssqueezing.py: ssqueeze"]}
{"id": "C226", "title": "The patience of cwt, also in several threads", "statement": "Every FFT taken by a call of cwt uses the patience passed to that call, and once all calls have returned FFT_GLOBAL's patience and time limit are what they were before, also when calls run in several threads. (False: the FFT of the signal is taken before the patience is set; and calls that overlap put back each other's settings, so that the global setting stays changed for good.)", "quantifier": "all numbers of calls and threads, all schedules of their steps, all values of patience including refused ones, all settings beforehand, vectorized or not", "why_tests_cant": "whether a setting is lost depends on the schedule; results are the same numbers, only planning differs, so nothing fails", "anchors": ["ssqueezepy/_cwt.py: cwt", "ssqueezepy/utils/fft_utils.py: FFT"]}
{"id": "C227", "title": "The precision of results", "statement": "Every array returned by cwt, ssq_cwt, stft, ssq_stft and their inverses has the precision asked for: that of the wavelet (also for a wavelet function of the user's), of dtype, or of the transform given. (False: the frequencies ssq_cwt makes are always float64; icwt gives float64 from complex64 with two integrals, or where it divides by generated scales; components are always float64; with a higher-order wavelet the derivative may be complex128 beside a complex64 transform.)", "quantifier": "all wavelets, built-in or any function by the types it returns, both precisions, vectorized or not, all orders and options, sampling rates that are Python numbers or numpy scalars", "why_tests_cant": "the type depends on every operation on the way and on numpy's promotion; a test tries one combination and checks values with a tolerance that float32 meets as well", "anchors": ["ssqueezepy/_cwt.py: cwt, icwt", "ssqueezepy/_stft.py: stft, istft", "ssqueezepy/_ssq_cwt.py: ssq_cwt, issq_cwt", "ssqueezepy/_ssq_stft.py: ssq_stft, issq_stft", "ssqueezepy/wavelets.py: Wavelet"]}
{"id": "C228", "title": "Descriptions of wavelets", "statement": "The description of a wavelet in titles of plots (its name, config_str, the scale and the length) names all its options and its length; without the length (show_N=False) it is the same text less the length, whatever digits occur in it; wavelets described alike are the same. (The last is false: centered_scale and the dtype are not shown. Wavelets described alike have the same name, length and shown options.)", "quantifier": "all wavelets, options, texts of values, lengths and scales", "why_tests_cant": "Ranges over all configurations; that a text can be read back in one way only is not a matter of examples.", "anchors": ["ssqueezepy/wavelets.py: Wavelet.config_str, Wavelet._desc, Wavelet.name"]}
{"id": "C229", "title": "Combining and dilating wavelets", "statement": "With a wavelet function of the user's own, the transform follows the function: a wavelet that is a combination a*f + b*g of two others at all frequencies has, at the same scales, this combination of their transforms and of their derivatives; the wavelet w -> f(c*w) at scales s has the transform of f at scales c*s (times 1/sqrt(c) with l1_norm=False). (The first is false for wavelets of complex dtype of which an imaginary part is dropped.)", "quantifier": "all signals, wavelet functions, factors, scales, paddings, norms, sampling rates and code paths", "why_tests_cant": "Ranges over all functions that can be passed as a wavelet.", "anchors": ["ssqueezepy/_cwt.py: cwt", "ssqueezepy/wavelets.py: Wavelet.__call__"]}
{"id": "C230", "title": "Combining windows", "statement": "The STFT follows the window: with windows given as arrays, one of them a combination a*u + b*v, its STFT and the derivative are these combinations of the STFTs with u and v; a factor of the window multiplies the STFT and leaves the quotient of derivative and transform, from which frequencies are taken, as it is. (False for window values below the least normal number of the dtype, which are replaced by zeros.)", "quantifier": "all signals, windows of one length, factors, FFT lengths, hops, paddings and both modulations", "why_tests_cant": "Ranges over all windows and factors.", "anchors": ["ssqueezepy/_stft.py: stft, get_window", "ssqueezepy/algos.py: zero_denormals"]}
{"id": "C231", "title": "Sweeps of resolutions over scales", "statement": "sweep_std_t, sweep_std_w and sweep_harea with get=True return one value per scale, in the order of the scales: what time_resolution and freq_resolution return at this scale with the options given, and their product; scales may be named or given; an option that is not known is refused; whether both resolutions are without dimension changes the areas only by the ratio of two peak frequencies, not at all for 1024 samples.", "quantifier": "all wavelets, lengths, scales (named or given) and options", "why_tests_cant": "Ranges over all wavelets and scales; a misplaced value would look like any other.", "anchors": ["ssqueezepy/visuals.py: sweep_std_t, sweep_std_w, sweep_harea", "ssqueezepy/wavelets.py: time_resolution, freq_resolution", "ssqueezepy/utils/cwt_utils.py: process_scales"]}
{"id": "C232", "title": "Titles of plots", "statement": "With title=(text, options) the text is drawn with the user's options, and for the others those of configs.ini at the time; a title without options is drawn with the file's; None draws nothing. The arguments are not changed, so a dict of options can be used for many plots.", "quantifier": "every title, dict of options, contents of configs.ini, and history of plots with edits of the file in between", "why_tests_cant": "Ranges over histories: the first plot with a dict looks right.", "anchors": ["ssqueezepy/visuals.py: _maybe_title", "ssqueezepy/configs.py: gdefaults"]}
{"id": "C233", "title": "Statistics returned by histograms", "statement": "hist(x, stats=True) returns the mean, standard deviation, minimum and maximum of all values, whatever the array's shape or order; in other units c*x + b they are those of the new units; the mean is between minimum and maximum and the deviation at most half their distance; an empty array raises ValueError.", "quantifier": "every array of real values, every change of units", "why_tests_cant": "Ranges over all arrays.", "anchors": ["ssqueezepy/visuals.py: hist"]}
{"id": "C234", "title": "Peaks of the named wavelets", "statement": "Each of gmw (order 0), cmhat, hhhat, bump and morlet has exactly one peak: gmw at (beta/gamma)^(1/gamma), or 1 with centered_scale, cmhat at mu + sqrt(2)/s, hhhat at mu + 2 cos(2 pi/7), bump at mu, morlet slightly above mu, at the p with p (1 - exp(-mu p)) = mu. The modulus rises before the peak and falls after it, and all other values are smaller. So center_frequency(kind='peak-ct') returns, and returns the peak to within its search step of 0.001.", "quantifier": "every frequency; every mu and every s > 0 (mu > 0 for morlet), every gamma and beta that gmw accepts, either norm; for the search every function with one peak between 0 and 999", "why_tests_cant": "Ranges over all real frequencies and parameters, while find_maximum only looks at samples and documents unimodality as an assumption.", "anchors": ["ssqueezepy/wavelets.py: morlet, bump, cmhat, hhhat, center_frequency", "ssqueezepy/_gmw.py: gmw", "ssqueezepy/algos.py: find_maximum"]}
{"id": "C235", "title": "The sampled peak of a wavelet is next to its peak", "statement": "center_frequency(wavelet, scale, N, kind='peak') of a wavelet with one peak at p is p/scale to within one bin, 2 pi/N, whenever p/scale is between the first bin and pi; never a negative frequency. With scale=None it is pi/4 to within a bin and 0.001. In particular for gmw of order 0, cmhat, hhhat and morlet.", "quantifier": "every real wavelet with one peak, every scale, every N >= 2 (16 with scale=None); the parameters of cmhat, hhhat and morlet for which the bins are finer than the peak", "why_tests_cant": "Ranges over all real scales and lengths.", "anchors": ["ssqueezepy/wavelets.py: center_frequency, morlet, cmhat, hhhat, _xifn", "ssqueezepy/algos.py: find_maximum"]}
{"id": "C236", "title": "A value that is passed is found", "statement": "If |fn|, continuous, is at most value somewhere between step_start and step_limit and at least value somewhere else there, then find_first_occurrence(fn, value) with its default steps finds a point. find_min_scale finds a scale for every cutoff up to 1 that the wavelet falls to after its peak; with the default cutoff always, if there is a peak.", "quantifier": "every continuous function, value, start and limit; every cutoff", "why_tests_cant": "Ranges over all functions and over searches of any number of blocks.", "anchors": ["ssqueezepy/algos.py: find_first_occurrence", "ssqueezepy/utils/cwt_utils.py: find_min_scale"]}
{"id": "C237", "title": "The maximal scale bounds exist", "statement": "cwt_scalebounds(wavelet, N, preset='maximal') succeeds and returns 0 <= min_scale < max_scale for every wavelet with one peak that vanishes at zero frequency and is nonnegative otherwise: with the peak between 0.1 and 9.99, or later if the wavelet falls to half its peak within the search block of the peak. In particular for gmw of order 0, morlet, cmhat and hhhat (the latter sampled at 100 points or more), each with its default parameters.", "quantifier": "every such wavelet, every N for which it is sampled at 32 points or more, padded or not, every cutoff passed", "why_tests_cant": "Ranges over all wavelets and lengths; both bounds come from searches that may fail, and their order is not checked by the code.", "anchors": ["ssqueezepy/utils/cwt_utils.py: cwt_scalebounds, find_min_scale, find_max_scale", "ssqueezepy/algos.py: find_maximum, find_first_occurrence", "ssqueezepy/wavelets.py: morlet", "ssqueezepy/_gmw.py: gmw"]}
{"id": "C238", "title": "Frequencies that the maximal scales cover", "statement": "For a nonnegative wavelet with one peak p, if cwt_scalebounds(wavelet, N, preset='maximal') returns, the peak at min_scale is at the greatest frequency pi or beyond it (up to the search step of 0.001), and at max_scale it is at the second bin 4 pi/M or above it, M being the number of samples of the wavelet. max_scale is less than p M/(4 pi), the scale with the peak at that bin, by less than 4 (p + 0.001)/pi, whatever M. find_max_scale(bin_loc=b) does the same for any bin b.", "quantifier": "every such wavelet with p >= 0.01, every N with M >= 4, padded or not, every bin from 1 to M/2, every cutoff passed", "why_tests_cant": "Ranges over all wavelets and lengths.", "anchors": ["ssqueezepy/utils/cwt_utils.py: cwt_scalebounds, find_min_scale, find_max_scale", "ssqueezepy/algos.py: find_maximum"]}
