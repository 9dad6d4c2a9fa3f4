import Verif.Props.Covariance
import Verif.Props.Integrate
import Verif.Props.Icwt
import Verif.Props.IssqCwt

/-!
# C209: the normalization of the wavelet (ssqueezepy/wavelets.py:62-96, _cwt.py:14-453, _ssq_cwt.py:13-378, utils/cwt_utils.py:28-47)
-/
namespace Ssq
open Finset

namespace Spec

/-- The wavelet function multiplied by a number. -/
noncomputable def scaleFn (c : ℝ) : WFn → WFn
  | .real f => .real fun w => c * f w
  | .cplx f => .cplx fun w => (c : ℂ) * f w

/-- A wavelet with its function multiplied by a number; its scale routines are the same. -/
noncomputable def scaleWav (c : ℝ) (w : CwtWavelet) : CwtWavelet := { w with fn := scaleFn c w.fn }

/-- All entries of a transform multiplied by a number. -/
noncomputable def times (c : ℝ) (W : List (List ℂ)) : List (List ℂ) := W.map fun r => r.map fun z => (c : ℂ) * z

end Spec

theorem scaleFn_eval (c : ℝ) (f : WFn) (w : ℝ) : (Spec.scaleFn c f).eval w = (c : ℂ) * f.eval w := by
  cases f <;> simp [Spec.scaleFn, WFn.eval]

theorem sampleRow_scale (c : ℝ) (f : WFn) (N : ℕ) (s : ℝ) : sampleRow (Spec.scaleFn c f) N s = (sampleRow f N s).map fun z => (c : ℂ) * z := by
  simp [sampleRow, scaleFn_eval, Function.comp_def]

theorem getD_map_mul (c : ℂ) (l : List ℂ) (k : ℕ) : (l.map fun z => c * z).getD k 0 = c * l.getD k 0 := by
  by_cases h : k < l.length
  · rw [List.getD_eq_getElem _ _ (by simpa using h), List.getD_eq_getElem _ _ h, List.getElem_map]
  · rw [List.getD_eq_default _ _ (by simpa using h), List.getD_eq_default _ _ (by omega), mul_zero]

theorem halveNyquist_scale (c : ℂ) (l : List ℂ) : halveNyquist (l.map fun z => c * z) = (halveNyquist l).map fun z => c * z := by
  unfold halveNyquist
  rw [List.length_map, getD_map_mul]
  split
  · rw [List.map_set, mul_div_assoc]
  · rfl

theorem imagSmall_scale (c : ℝ) (hc : 0 < c) (im re : ℝ) : ImagSmall (c * im) (c * re) ↔ ImagSmall im re := by
  unfold ImagSmall
  by_cases h : re = 0
  · simp [h, mul_neg_iff, hc, not_lt.2 hc.le]
  · rw [if_neg h, if_neg (mul_ne_zero hc.ne' h), mul_div_mul_left _ _ hc.ne']

theorem dropImag_scale (c : ℝ) (hc : 0 < c) (f : WFn) (rows : List (List ℂ)) : dropImag (Spec.scaleFn c f) (Spec.times c rows) = Spec.times c (dropImag f rows) := by
  cases f with
  | real f => rfl
  | cplx f =>
    simp only [Spec.scaleFn, dropImag]
    have h1 : ∀ (g : ℂ → ℝ), (∀ z, g ((c : ℂ) * z) = c * g z) → ((Spec.times c rows).flatten.map g).sum = c * (rows.flatten.map g).sum := by
      intro g hg
      unfold Spec.times
      rw [← List.map_flatten, List.map_map, ← List.sum_map_mul_left]
      congr 1
      exact List.map_congr_left fun z _ => hg z
    rw [h1 _ (fun z => by simp), h1 _ (fun z => by simp)]
    by_cases h : ImagSmall (rows.flatten.map fun z : ℂ => z.im).sum (rows.flatten.map fun z : ℂ => z.re).sum
    · rw [if_pos h, if_pos ((imagSmall_scale c hc _ _).2 h)]
      simp [Spec.times, Function.comp_def]
    · rw [if_neg h, if_neg (fun h' => h ((imagSmall_scale c hc _ _).1 h'))]

theorem psihCall_scale (c : ℝ) (hc : 0 < c) (f : WFn) (N : ℕ) (scales : List ℝ) : psihCall (Spec.scaleFn c f) N scales = Spec.times c (psihCall f N scales) := by
  unfold psihCall
  rw [← dropImag_scale c hc]
  congr 1
  unfold Spec.times
  rw [List.map_map]
  exact List.map_congr_left fun s _ => by rw [sampleRow_scale, halveNyquist_scale]; rfl

theorem psihOne_scale (c : ℝ) (hc : 0 < c) (f : WFn) (N : ℕ) (s : ℝ) : psihOne (Spec.scaleFn c f) N s = (psihOne f N s).map fun z => (c : ℂ) * z := by
  unfold psihOne
  rw [psihCall_scale c hc, Spec.times]
  have h : 0 < (psihCall f N [s]).length := by simp [psihCall, dropImag_length]
  rw [List.getD_eq_getElem _ _ (by simpa using h), List.getD_eq_getElem _ _ h, List.getElem_map]

theorem ifftL_scale (c : ℂ) (l : List ℂ) : ifftL (l.map fun z => c * z) = (ifftL l).map fun z => c * z := by
  unfold ifftL
  rw [List.length_map, List.map_map]
  refine List.map_congr_left fun k _ => ?_
  simp only [getD_map_mul, Function.comp]
  rw [idft_smul]

theorem convRow_scale (c : ℂ) (p xh : List ℂ) : convRow (p.map fun z => c * z) xh = (convRow p xh).map fun z => c * z := by
  unfold convRow
  rw [← ifftL_scale, List.zipWith_map_left, List.map_zipWith]
  simp only [mul_assoc]

theorem dConvVec_scale (c : ℂ) (dt : ℝ) (p xh : List ℂ) : dConvVec dt (p.map fun z => c * z) xh = (dConvVec dt p xh).map fun z => c * z := by
  unfold dConvVec
  rw [← ifftL_scale, List.zipWith_map_left, List.map_zipWith]
  congr 1
  have : List.zipWith (fun a b : ℂ => c * a * b) p xh = (List.zipWith (fun a b : ℂ => a * b) p xh).map fun z => c * z := by
    rw [List.map_zipWith]; simp only [mul_assoc]
  rw [this, List.zipWith_map_left]
  simp only [mul_assoc]

theorem dConvLoop_scale (c : ℂ) (dt : ℝ) (p xh : List ℂ) : dConvLoop dt (p.map fun z => c * z) xh = (dConvLoop dt p xh).map fun z => c * z := by
  unfold dConvLoop
  rw [← ifftL_scale, List.map_zipWith, List.zipWith_map_right]
  congr 1
  have : List.zipWith (fun (w : ℝ) (b : ℂ) => Complex.I * (w : ℂ) / (dt : ℂ) * (c * b)) (xifn 1 xh.length) p =
      (List.zipWith (fun (w : ℝ) (b : ℂ) => Complex.I * (w : ℂ) / (dt : ℂ) * b) (xifn 1 xh.length) p).map fun z => c * z := by
    rw [List.map_zipWith]
    congr 1
    funext w b
    ring
  rw [this, List.zipWith_map_left]
  simp only [mul_assoc]

theorem pySlice_map' {α β : Type} (f : α → β) (l : List α) (a b : Option ℤ) : pySlice (l.map f) a b = (pySlice l a b).map f := by
  simp [pySlice, List.map_drop, List.map_take]

theorem cwtUnpad_scale (a : CwtArgs) (w : CwtWavelet) (n1 : ℤ) (N : ℕ) (c : ℂ) (row : List ℂ) :
    cwtUnpad { a with wavelet := w } n1 N (row.map fun z => c * z) = (cwtUnpad a n1 N row).map fun z => c * z := by
  unfold cwtUnpad
  simp only
  split
  · exact pySlice_map' _ _ _ _
  · rfl

theorem l2Scale_scale (l1 : Bool) (s : List ℝ) (c : ℝ) (rows : List (List ℂ)) : l2Scale l1 s (Spec.times c rows) = Spec.times c (l2Scale l1 s rows) := by
  unfold l2Scale
  split
  · rfl
  · unfold Spec.times
    rw [List.zipWith_map_right, List.map_zipWith]
    congr 1
    funext t r
    rw [List.map_map, List.map_map]
    exact List.map_congr_left fun z _ => by simp only [Function.comp]; ring

theorem cwtRun_scaleWav (a : CwtArgs) (c : ℝ) (hc : 0 < c) (dt : ℝ) (scales : List ℝ) (N : ℕ) (xp : List ℝ) (n1 : ℤ) :
    cwtRun { a with wavelet := Spec.scaleWav c a.wavelet } dt scales N xp n1 =
      (Spec.times c (cwtRun a dt scales N xp n1).1, Spec.times c (cwtRun a dt scales N xp n1).2) := by
  have key : ∀ xh : List ℂ,
      (if a.vectorized then cwtVectorized (Spec.scaleFn c a.wavelet.fn) dt scales xh else cwtLoop (Spec.scaleFn c a.wavelet.fn) dt scales xh) =
      (Spec.times c (if a.vectorized then cwtVectorized a.wavelet.fn dt scales xh else cwtLoop a.wavelet.fn dt scales xh).1,
       Spec.times c (if a.vectorized then cwtVectorized a.wavelet.fn dt scales xh else cwtLoop a.wavelet.fn dt scales xh).2) := by
    intro xh
    split
    · simp only [cwtVectorized, psihCall_scale c hc, Spec.times, List.map_map, Prod.mk.injEq]
      exact ⟨List.map_congr_left fun p _ => convRow_scale _ _ _, List.map_congr_left fun p _ => dConvVec_scale _ _ _ _⟩
    · simp only [cwtLoop, psihOne_scale c hc, Spec.times, List.map_map, Prod.mk.injEq]
      exact ⟨List.map_congr_left fun p _ => convRow_scale _ _ _, List.map_congr_left fun p _ => dConvLoop_scale _ _ _ _⟩
  unfold cwtRun
  simp only [Spec.scaleWav] at key ⊢
  rw [key]
  simp only
  rw [← l2Scale_scale, ← l2Scale_scale]
  simp only [Spec.times, List.map_map, Function.comp_def]
  simp only [cwtUnpad_scale]

/-- **C209**: the CWT with a wavelet multiplied by a positive number is the CWT multiplied by it, whether it succeeds or raises. -/
theorem C209_cwt (x : List ℝ) (a : CwtArgs) (c : ℝ) (hc : 0 < c) :
    cwt x { a with wavelet := Spec.scaleWav c a.wavelet } = (cwt x a).map fun r => (Spec.times c r.1, r.2.1, Spec.times c r.2.2) := by
  have hn : cwtNv { a with wavelet := Spec.scaleWav c a.wavelet } = cwtNv a := rfl
  unfold cwt
  rw [hn]
  simp only [cwtRun_scaleWav a c hc]
  simp only [Spec.scaleWav]
  rcases cwtDt a.fs a.t x.length with e | r
  · rfl
  rcases checkGmw a.wavelet.gmw a.l1Norm with e | u
  · rfl
  rcases cwtPad x a.padtype with e | p
  · rfl
  simp only [ok_bind]
  rcases processScales a.scales x.length (some a.wavelet.sw) (cwtNv a) true a.downsample with e | sc <;> rfl

/-- `cwt` is homogeneous, errors included. -/
theorem cwt_scale_eq (x : List ℝ) (hx : 0 < x.length) (a : CwtArgs) (t : Option PadType) (ht : a.padtype = t.map padName) (c : ℝ) :
    cwt (x.map fun u => c * u) a = (cwt x a).map fun r => (Spec.times c r.1, r.2.1, Spec.times c r.2.2) := by
  rcases h : cwt x a with e | ⟨W, s, dW⟩
  · obtain ⟨xp, n1, h1, -⟩ := cwtPad_ok t x hx
    obtain ⟨xp', n1', h1', -⟩ := cwtPad_ok t (x.map fun u => c * u) (by simpa using hx)
    unfold cwt at h ⊢
    rw [List.length_map, ht, h1']
    rw [ht, h1] at h
    rcases hD : cwtDt a.fs a.t x.length with e1 | r1
    · rw [hD, error_bind] at h
      rw [error_bind, h, Except.map]
    rw [hD, ok_bind] at h
    rw [ok_bind]
    rcases hG : checkGmw a.wavelet.gmw a.l1Norm with e1 | u1
    · rw [hG, error_bind] at h
      rw [error_bind, h, Except.map]
    rw [hG, ok_bind, ok_bind] at h
    rw [ok_bind, ok_bind]
    rcases hP : processScales a.scales x.length (some a.wavelet.sw) (cwtNv a) true a.downsample with e1 | s1
    · rw [hP, error_bind] at h
      rw [error_bind, h, Except.map]
    · rw [hP, ok_bind] at h
      exact nomatch h
  · rw [cwt_scale x hx c a t ht W s dW h, Except.map]
    simp only [Spec.times]

theorem cwt_scaleWav (x : List ℝ) (hx : 0 < x.length) (a : CwtArgs) (t : Option PadType) (ht : a.padtype = t.map padName) (c : ℝ) (hc : 0 < c) :
    cwt x { a with wavelet := Spec.scaleWav c a.wavelet } = cwt (x.map fun u => c * u) a := by
  rw [cwt_scale_eq x hx a t ht c, C209_cwt x a c hc]

/-- Multiplying the wavelet or the signal is the same: `ssq_cwt` cannot tell them apart. -/
theorem C209_ssq (x : List ℝ) (hx : 0 < x.length) (a : SsqCwtArgs) (t : Option PadType) (ht : a.padtype = t.map padName) (c : ℝ) (hc : 0 < c) :
    ssqCwt x { a with wavelet := Spec.scaleWav c a.wavelet } = ssqCwt (x.map fun u => c * u) a := by
  have h1 : ∀ r s, cwt x (({ a with wavelet := Spec.scaleWav c a.wavelet } : SsqCwtArgs).cwtArgs r s) = cwt (x.map fun u => c * u) (a.cwtArgs r s) :=
    fun r s => cwt_scaleWav x hx (a.cwtArgs r s) t ht c hc
  have h2 : ({ a with wavelet := Spec.scaleWav c a.wavelet } : SsqCwtArgs).ssqArgs = a.ssqArgs := by
    funext fs st sc N W dW
    unfold SsqCwtArgs.ssqArgs
    rfl
  have h3 : ssqCwtNv { a with wavelet := Spec.scaleWav c a.wavelet } = ssqCwtNv a := rfl
  have h4 : (Spec.scaleWav c a.wavelet).sw = a.wavelet.sw := rfl
  unfold ssqCwt
  simp only [h1, h2, h3, h4, List.length_map]

/-- The synchrosqueezed transform with a wavelet multiplied by a positive number, the threshold too, is the synchrosqueezed transform multiplied by it. -/
theorem C209_squeeze (x : List ℝ) (a : SsqCwtArgs) (t : Option PadType) (c g : ℝ) (o : SsqCwtOut) (hx : 0 < x.length)
    (ht : a.padtype = t.map padName) (hc : 0 < c) (hg : a.gamma = some g) (hq : a.squeezing = .sum) (h : ssqCwt x a = .ok o) :
    ∃ o', ssqCwt x { a with wavelet := Spec.scaleWav c a.wavelet, gamma := some (c * g) } = .ok o' ∧ o'.scales = o.scales ∧ o'.freqs = o.freqs ∧
      ∀ r, ∀ j < x.length, o'.Tx r j = c * o.Tx r j := by
  obtain ⟨o', h1, h2, h3, -, h4⟩ := C147_partial x a t c g c o hx ht hc.ne' hg (by rw [hq]; rfl) (by rw [hq]; exact nofun) h
  rw [abs_of_pos hc] at h1
  refine ⟨o', ?_, h2, h3, h4⟩
  rw [← h1]
  exact C209_ssq x hx { a with gamma := some (c * g) } t ht c hc

theorem icwtLeaf_scale (a : IcwtArgs) (w : CwtWavelet) (c : ℝ) (hc : c ≠ 0) (n : ℕ) (W : List (List ℂ)) (s : List ℝ) (st : ScaleType) (nv : Nv) :
    icwtLeaf { a with wavelet := w, admSsq := c * a.admSsq } n (Spec.times c W) s st nv = icwtLeaf a n W s st nv := by
  have hf : c * icwtFactor (c * a.admSsq) st nv = icwtFactor a.admSsq st nv := by
    have e : ∀ q : ℝ, c * (2 / (c * a.admSsq) * q) = 2 / a.admSsq * q := by
      intro q
      rw [← mul_assoc, ← mul_div_assoc, mul_div_mul_left _ _ hc]
    unfold icwtFactor
    split
    · exact e _
    · rw [mul_div_assoc, mul_div_assoc]; exact e _
  unfold icwtLeaf icwt1int
  simp only [List.map_map]
  refine List.map_congr_left fun j _ => ?_
  simp only [Function.comp]
  have h1 : (List.zipWith (fun (s : ℝ) (row : List ℂ) => (row.getD j 0).re / (icwtNorm st a.l1Norm s).getD 0) s (Spec.times c W)).sum =
      c * (List.zipWith (fun (s : ℝ) (row : List ℂ) => (row.getD j 0).re / (icwtNorm st a.l1Norm s).getD 0) s W).sum := by
    unfold Spec.times
    rw [List.zipWith_map_right]
    simp only [getD_map_mul, Complex.re_ofReal_mul]
    induction s generalizing W with
    | nil => simp
    | cons s0 s ih =>
      cases W with
      | nil => simp
      | cons r W =>
        simp only [List.zipWith_cons_cons, List.sum_cons, ih]
        ring
  rw [h1, ← hf]
  ring

theorem icwtArr_scale (a : IcwtArgs) (w : CwtWavelet) (hw : w.sw = a.wavelet.sw) (c : ℝ) (hc : c ≠ 0) (n : ℕ) (m : ℕ) : ∀ (W : List (List ℂ)) (s : List ℝ), s.length = m →
    icwtArr { a with wavelet := w, admSsq := c * a.admSsq } n (Spec.times c W) s = icwtArr a n W s := by
  induction m using Nat.strong_induction_on with
  | _ m ih =>
    intro W s hs
    rw [icwtArr, icwtArr]
    simp only [hw]
    have hl : (Spec.times c W).length = W.length := by simp [Spec.times]
    have ht : ∀ k, (Spec.times c W).take k = Spec.times c (W.take k) := fun k => by simp [Spec.times, List.map_take]
    have hd : ∀ k, (Spec.times c W).drop k = Spec.times c (W.drop k) := fun k => by simp [Spec.times, List.map_drop]
    rcases processScales (.arr [s.length, 1] .f64 s) (icwtArr.orElseN a.xLen n) (some a.wavelet.sw) none true a.downsample with e | ⟨-, st, -, nv⟩
    · rfl
    simp only [hl]
    split
    · rfl
    split
    · rcases logscaleTransitionIdx (thTr .f64) s with e | (_ | idx)
      · rfl
      · rfl
      · simp only
        split
        · next h =>
          rw [ht, hd, ih (s.take idx).length (by simp; omega) _ _ rfl, ih (s.drop idx).length (by simp; omega) _ _ rfl]
        · rfl
    · rw [icwtLeaf_scale a w c hc]

/-- Multiplying the wavelet and its admissibility constant by the same positive number leaves the inverse of the CWT as it was. -/
theorem C209_icwt_partial (x : List ℝ) (a : CwtArgs) (c : ℝ) (hc : 0 < c) (W : List (List ℂ)) (s : List ℝ) (dW : List (List ℂ)) (h : cwt x a = .ok (W, s, dW))
    (n : ℕ) (sc : ScalesArg) (b : IcwtArgs) :
    ∃ W' dW', cwt x { a with wavelet := Spec.scaleWav c a.wavelet } = .ok (W', s, dW') ∧
      icwt n W' sc { b with wavelet := Spec.scaleWav c b.wavelet, admSsq := c * b.admSsq } = icwt n W sc b := by
  refine ⟨Spec.times c W, Spec.times c dW, by rw [C209_cwt x a c hc, h]; rfl, ?_⟩
  have hA := icwtArr_scale b (Spec.scaleWav c b.wavelet) rfl c hc.ne' n
  have hL := icwtLeaf_scale b (Spec.scaleWav c b.wavelet) c hc.ne' n
  have hl : (Spec.times c W).length = W.length := by simp [Spec.times]
  have ht : ∀ k, (Spec.times c W).take k = Spec.times c (W.take k) := fun k => by simp [Spec.times, List.map_take]
  have hd : ∀ k, (Spec.times c W).drop k = Spec.times c (W.drop k) := fun k => by simp [Spec.times, List.map_drop]
  have hT : ∀ r, icwt.icwtTop { b with wavelet := Spec.scaleWav c b.wavelet, admSsq := c * b.admSsq } n (Spec.times c W) r = icwt.icwtTop b n W r := by
    intro r
    unfold icwt.icwtTop
    simp only [hl, ht, hd, hL, hA _ _ _ rfl]
  unfold icwt
  simp only [hT]
  rfl

/-- The hypotheses are met, by a wavelet in another unit. -/
example : ∃ W dW, cwt [3, 1, 4, 1] (argsR (some .reflect)) = .ok (W, [1, 2, 4], dW) ∧
    cwt [3, 1, 4, 1] { argsR (some .reflect) with wavelet := Spec.scaleWav 5 (argsR (some .reflect)).wavelet } = .ok (Spec.times 5 W, [1, 2, 4], Spec.times 5 dW) := by
  obtain ⟨W, dW, h⟩ := argsR_ok [3, 1, 4, 1] (by simp) (some .reflect)
  exact ⟨W, dW, h, by rw [C209_cwt _ _ 5 (by norm_num), h]; rfl⟩

example : ∃ o o', ssqCwt [3, 1, 4, 1] (exSsq (some .reflect)) = .ok o ∧
    ssqCwt [3, 1, 4, 1] { exSsq (some .reflect) with wavelet := Spec.scaleWav 5 (exSsq (some .reflect)).wavelet, gamma := some (5 * (1 / 100)) } = .ok o' ∧
    ∀ r, ∀ j < 4, o'.Tx r j = (5 : ℝ) * o.Tx r j := by
  obtain ⟨o, h, -⟩ := exSsq_ok (some .reflect) [3, 1, 4, 1] (by simp)
  obtain ⟨o', h1, -, -, h2⟩ := C209_squeeze [3, 1, 4, 1] (exSsq (some .reflect)) (some .reflect) 5 (1 / 100) o (by simp) rfl (by norm_num) rfl rfl h
  exact ⟨o, o', h, h1, h2⟩

/-! ### The computed constant -/

/-- C209 as one would have it: the constant `adm_ssq` computed for the multiplied wavelet is the constant multiplied, so that the inverse needs no care. -/
def C209_full : Prop := ∀ (fn : ℝ → ℝ) (c C : ℝ), 0 < c → admSsq fn = .ok C → admSsq (fun w => c * fn w) = .ok (c * C)

theorem hat_div (c w : ℝ) : c * (w * hat w) / w = c * hat w := by
  rcases eq_or_ne w 0 with rfl | h
  · have : hat 0 = 0 := by
      unfold hat; rw [abs_of_nonpos (by norm_num)]; exact max_eq_left (by norm_num)
    simp [this]
  · field_simp

theorem hat_le (w : ℝ) : |hat w| ≤ 1 / 4 := by
  unfold hat
  rw [abs_of_nonneg (le_max_left _ _)]
  exact max_le (by norm_num) (by linarith [abs_nonneg (w - 1 / 2)])

/-- It is wrong: whether the integral converges is decided by the absolute size of the function, so that a wavelet that is small enough raises an exception. -/
theorem C209_refuted : ¬ C209_full := by
  intro h
  obtain ⟨R, hR⟩ := hat_ok
  have h0 : admSsq (fun w => w * hat w) = .ok R := by
    unfold admSsq
    rw [show (fun w : ℝ => w * hat w / w) = hat from funext fun w => by simpa using hat_div 1 w, hR]
    rfl
  have h1 := h _ (1 / 10 ^ 10) R (by norm_num) h0
  unfold admSsq at h1
  rw [show (fun w : ℝ => 1 / 10 ^ 10 * (w * hat w) / w) = fun w => 1 / 10 ^ 10 * hat w from funext fun w => hat_div _ w] at h1
  have hb : ∀ w, |1 / 10 ^ 10 * hat w| ≤ 1 / 10 ^ 10 := fun w => by
    rw [abs_mul, abs_of_pos (by norm_num : (0 : ℝ) < 1 / 10 ^ 10)]
    have := hat_le w
    nlinarith
  rcases C114_total (fun w => 1 / 10 ^ 10 * hat w) with ⟨R', w, h2⟩ | ⟨h2, -⟩
  · obtain ⟨m, L, n, hm, -, h3⟩ := C114_shape _ R' w h2
    simp only at h3
    obtain ⟨-, -, -, h4, h5⟩ := h3
    cases w with
    | false =>
      have h6 := (h4 rfl).2
      have h7 : ((List.range (10000 * m)).map fun i : ℕ => |1 / 10 ^ 10 * hat (1 / 10 + ((i : ℝ) + 1) * ((L - 1 / 10) / ((10000 * m : ℕ) : ℝ)))|).sum ≤ ((10000 * m : ℕ) : ℝ) * (1 / 10 ^ 10) := by
        have := List.sum_le_card_nsmul ((List.range (10000 * m)).map fun i : ℕ => |1 / 10 ^ 10 * hat (1 / 10 + ((i : ℝ) + 1) * ((L - 1 / 10) / ((10000 * m : ℕ) : ℝ)))|) (1 / 10 ^ 10 : ℝ)
          (fun y hy => by obtain ⟨i, -, rfl⟩ := List.mem_map.1 hy; exact hb _)
        rw [List.length_map, List.length_range, nsmul_eq_mul] at this
        exact this
      have h8 : ((10000 * m : ℕ) : ℝ) ≤ 80000 := by
        have : m ≤ 8 := by
          simp only [List.mem_cons, Prod.mk.injEq, List.not_mem_nil, or_false] at hm
          omega
        exact_mod_cast (by omega : 10000 * m ≤ 80000)
      have h9 : ((10000 * m : ℕ) : ℝ) * (1 / 10 ^ 10) ≤ 80000 * (1 / 10 ^ 10) := mul_le_mul_of_nonneg_right h8 (by norm_num)
      have := h6.trans_le (h7.trans h9)
      norm_num at this
    | true =>
      have h6 := (h5 rfl).2
      have h7 := near_error (fun w => 1 / 10 ^ 10 * hat w) 160 (1 / 10 ^ 10) (by norm_num) (by norm_num) (fun x y _ _ _ _ => by
        rw [← mul_sub, abs_mul, abs_of_pos (by norm_num : (0 : ℝ) < 1 / 10 ^ 10)]
        exact mul_le_mul_of_nonneg_left (by simpa using hat_lip x y) (by norm_num))
      have h8 : |∫ t in (1 / 10 ^ 15 : ℝ)..(1 / 10), 1 / 10 ^ 10 * hat t| ≤ 1 / 10 ^ 10 * |(1 / 10 : ℝ) - 1 / 10 ^ 15| := by
        have := intervalIntegral.norm_integral_le_of_norm_le_const (a := (1 / 10 ^ 15 : ℝ)) (b := 1 / 10) (f := fun w => 1 / 10 ^ 10 * hat w) (C := 1 / 10 ^ 10)
          (fun w _ => hb w)
        exact this
      have h9 := (abs_sub_abs_le_abs_sub _ _).trans h7
      have h10 := (h6.trans (le_abs_self _)).trans (sub_le_iff_le_add.1 h9)
      have := h10.trans (add_le_add_right h8 _)
      norm_num [abs_of_pos] at this
  · rw [h2] at h1
    exact nomatch h1

end Ssq
