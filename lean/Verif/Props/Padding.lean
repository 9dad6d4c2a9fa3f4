import Verif.Lemmas.Padding

/-!
# Properties C01–C03: padding
-/
namespace Ssq
open Spec

/-- **C01.** For every signal length `n ≥ 1` the default padded length is a power of two, it is the
*only* power of two strictly between `√2·n` and `2√2·n` (hence larger than `n`), and the pads
`n1` (left), `n2` (right) are non-negative, add up to the difference, and `n1 - n2 ∈ {0, 1}`. -/
theorem C01_default_pad_length (n : ℕ) (hn : 1 ≤ n) :
    (∃ k : ℕ, (p2up n).1 = 2 ^ k) ∧
    2 * n ^ 2 < (p2up n).1 ^ 2 ∧ (p2up n).1 ^ 2 < 8 * n ^ 2 ∧ n < (p2up n).1 ∧
    (∀ k : ℕ, 2 * n ^ 2 < (2 ^ k) ^ 2 → (2 ^ k) ^ 2 < 8 * n ^ 2 → (p2up n).1 = 2 ^ k) ∧
    0 ≤ (p2up n).2.2 ∧
    (p2up n).2.1 + (p2up n).2.2 = (p2up n).1 - (n : ℤ) ∧
    ((p2up n).2.1 = (p2up n).2.2 ∨ (p2up n).2.1 = (p2up n).2.2 + 1) := by
  obtain ⟨h1, h2⟩ := rhe_log_bounds hn
  set r := (roundHalfEven (Real.logb 2 (n : ℝ))).toNat with hr
  have hup : (p2up n).1 = 2 ^ (1 + r) := by
    simp only [p2up]; rw [if_neg (by omega)]
  have hsq : ((2 : ℕ) ^ (1 + r)) ^ 2 = 4 * (2 ^ r) ^ 2 := by rw [pow_add]; ring
  have hlow : 2 * n ^ 2 < (p2up n).1 ^ 2 := by rw [hup, hsq]; omega
  have hhigh : (p2up n).1 ^ 2 < 8 * n ^ 2 := by rw [hup, hsq]; omega
  have hgt : n < (p2up n).1 := by
    by_contra hc
    push Not at hc
    have := Nat.pow_le_pow_left hc 2
    have hpos : 0 < n ^ 2 := by positivity
    omega
  refine ⟨⟨_, hup⟩, hlow, hhigh, hgt, ?_, ?_, ?_, ?_⟩
  · intro k hk1 hk2
    rw [hup]
    congr 1
    rw [hup] at hlow hhigh
    rcases lt_trichotomy (1 + r) k with hlt | heq | hlt
    · exfalso
      have : (2 : ℕ) ^ (1 + r + 1) ≤ 2 ^ k := Nat.pow_le_pow_right (by norm_num) hlt
      have := Nat.pow_le_pow_left this 2
      rw [pow_succ 2 (1 + r), mul_pow] at this
      omega
    · exact heq
    · exfalso
      have : (2 : ℕ) ^ (k + 1) ≤ 2 ^ (1 + r) := Nat.pow_le_pow_right (by norm_num) hlt
      have := Nat.pow_le_pow_left this 2
      rw [pow_succ 2 k, mul_pow] at this
      omega
  · simp only [p2up] at hgt ⊢; omega
  · simp only [p2up]; ring
  · simp only [p2up] at hgt ⊢; omega

/-- Non-vacuity and a concrete value: 5 samples are padded to 8 (2 left, 1 right). -/
example : p2up 5 = (8, 2, 1) := by
  have h := (C01_default_pad_length 5 (by norm_num)).2.2.2.2.1 3 (by norm_num) (by norm_num)
  have : p2up 5 = ((p2up 5).1, ((p2up 5).1 : ℤ) - 5 - (((p2up 5).1 : ℤ) - 5) / 2,
      (((p2up 5).1 : ℤ) - 5) / 2) := rfl
  rw [this, h]; norm_num

/-- The docstring of `p2up` ("Calculates next power of 2") is not what the code computes:
for 6 samples it returns 16 although 8 is a power of two that is at least 6. -/
theorem C01_next_power_of_two_refuted : (p2up 6).1 = 16 ∧ ∃ k : ℕ, 6 ≤ 2 ^ k ∧ 2 ^ k < (p2up 6).1 := by
  have h := (C01_default_pad_length 6 (by norm_num)).2.2.2.2.1 4 (by norm_num) (by norm_num)
  exact ⟨by rw [h]; norm_num, 3, by norm_num, by rw [h]; norm_num⟩

/-- The names under which the schemes are requested. -/
def padName : PadType → String
  | .zero => "zero" | .reflect => "reflect" | .symmetric => "symmetric"
  | .replicate => "replicate" | .wrap => "wrap"

theorem parse_padName (t : PadType) : parsePadType true (padName t) = .ok t := by
  cases t <;> rfl

/-- What C02 and C03 ask of one call: it succeeds, the result has the requested length, the split is
balanced, `x` comes back by the slice `[n1 : n1+N]`, and every sample is that of the documented
infinite extension. -/
def PadSpec {α : Type} [Zero α] (t : PadType) (x : List α) (padlength : Option ℤ) : Prop :=
  ∃ xp nUp n1 n2, padsignal true x (padName t) padlength = .ok (xp, nUp, n1, n2) ∧
    (∀ L, padlength = some L → nUp = L) ∧ (xp.length : ℤ) = nUp ∧
    0 ≤ n2 ∧ (n1 = n2 ∨ n1 = n2 + 1) ∧ n1 + n2 = nUp - x.length ∧
    unpad xp n1 x.length = x ∧
    ∀ E, IsExtension t x E → ∀ (p : ℕ) (h : p < xp.length), xp[p] = E ((p : ℤ) - n1)

/-- The full statement of C02/C03: every scheme, every length at least that of the signal. -/
def C02_full : Prop :=
  ∀ (x : List ℤ) (t : PadType) (padlength : Option ℤ), 0 < x.length →
    (∀ L, padlength = some L → (x.length : ℤ) ≤ L) → PadSpec t x padlength

theorem padWidths_facts (N : ℕ) (hN : 0 < N) (padlength : Option ℤ)
    (hL : ∀ L, padlength = some L → (N : ℤ) ≤ L) :
    let w := padWidths N padlength
    (∀ L, padlength = some L → w.1 = L) ∧ 0 ≤ w.2.2 ∧ (w.2.1 = w.2.2 ∨ w.2.1 = w.2.2 + 1) ∧
      w.2.1 + w.2.2 = w.1 - N ∧ (padlength = none → 1 ≤ w.2.1 ∧ w.2.1 ≤ N) := by
  cases padlength with
  | none =>
    obtain ⟨_, _, hhigh, hgt, _, h0, hsum, hdiff⟩ := C01_default_pad_length N hN
    simp only [padWidths]
    refine ⟨by simp, h0, hdiff, hsum, fun _ => ?_⟩
    have h3 : (p2up N).1 < 3 * N := by
      by_contra hc
      push Not at hc
      have := Nat.pow_le_pow_left hc 2
      have hpos : 0 < N ^ 2 := by positivity
      rw [mul_pow] at this
      omega
    omega
  | some L =>
    have := hL L rfl
    simp only [padWidths]
    rw [abs_of_nonneg (by omega)]
    split
    · simp; omega
    · simp; omega

/-- **C02 / C03 (what holds).** For every non-empty signal, every scheme and every requested length
`L ≥ N` (or the default), padding succeeds, has exactly the requested length, is balanced with the
extra sample on the left, trims back to `x`, and each sample is the documented extension's —
provided that, for `'symmetric'` with an explicit length, `N < L ≤ 3N`. What is missing for the full
statement `C02_full` is false of the code, see the refutations below. Data movement only: holds for
any element type. -/
theorem C02_C03_padding_partial {α : Type} [Zero α] (x : List α) (t : PadType)
    (padlength : Option ℤ) (hx : 0 < x.length)
    (hL : ∀ L, padlength = some L → (x.length : ℤ) ≤ L)
    (hsym : t = .symmetric → ∀ L, padlength = some L →
      (x.length : ℤ) < L ∧ L ≤ 3 * x.length) :
    PadSpec t x padlength := by
  obtain ⟨h1, h2, h3, h4, h5⟩ := padWidths_facts x.length hx padlength hL
  set w := padWidths x.length padlength with hw
  have hn1 : 0 ≤ w.2.1 := by omega
  have hs : t = .symmetric → 1 ≤ w.2.1 ∧ w.2.1 ≤ x.length ∧ w.2.2 ≤ x.length := by
    intro ht
    cases hp : padlength with
    | none => have := h5 hp; omega
    | some L => have := hsym ht L hp; have := h1 L hp; omega
  obtain ⟨xp, hok, hlen, hext⟩ := padNumpy_ext t x w.2.1 w.2.2 hx hn1 h2 hs
  refine ⟨xp, w.1, w.2.1, w.2.2, ?_, h1, by omega, h2, h3, h4,
    unpad_of_ext hx hn1 h2 hlen hext, hext⟩
  unfold padsignal
  rw [parse_padName]
  simp only [if_true, ← hw]
  change (do let xp ← padNumpy t x w.2.1 w.2.2; pure (xp, w.1, w.2.1, w.2.2) : Py _) = _
  rw [hok]; rfl

/-- Non-vacuity: a symmetric request that meets the hypotheses, and an extension exists. -/
example : PadSpec .symmetric ([1, 2, 3, 4] : List ℤ) (some 7) ∧
    ∃ E, IsExtension .symmetric ([1, 2, 3, 4] : List ℤ) E :=
  ⟨C02_C03_padding_partial _ .symmetric (some 7) (by simp) (by simp) (by simp), exists_extension _ _ (by simp)⟩
example : PadSpec .reflect ([1, 2, 3, 4] : List ℤ) none :=
  C02_C03_padding_partial ([1, 2, 3, 4] : List ℤ) .reflect none (by simp) (by simp) (by simp)

/-- **C02 is false of the code**: `padsignal([1,2], 'symmetric', padlength=2)` returns four samples,
because `x[::-1][-0:]` is the whole array. -/
theorem C02_symmetric_zero_left_refuted :
    padsignal true ([1, 2] : List ℤ) "symmetric" (some 2) = .ok ([2, 1, 1, 2], 2, 0, 0) ∧
    ¬ C02_full := by
  have e : padsignal true ([1, 2] : List ℤ) "symmetric" (some 2) = .ok ([2, 1, 1, 2], 2, 0, 0) := by
    rfl
  refine ⟨e, fun h => ?_⟩
  obtain ⟨xp, nUp, n1, n2, h1, _, h3, _⟩ := h [1, 2] .symmetric (some 2) (by simp) (by simp)
  rw [show padName .symmetric = "symmetric" from rfl, e] at h1
  simp only [Except.ok.injEq, Prod.mk.injEq] at h1
  obtain ⟨rfl, rfl, -⟩ := h1
  simp at h3

/-- **C02 is false of the code** also for pads longer than the signal (reachable from `stft` with
`n_fft > 2N`): two samples padded "to 8" come out with only 6. -/
theorem C02_symmetric_long_refuted :
    padsignal true ([1, 2] : List ℤ) "symmetric" (some 8) = .ok ([2, 1, 1, 2, 2, 1], 8, 3, 3) := by
  rfl

/-- The full statement of C03: whatever the scheme and the pad length, every sample returned is that of the documented extension. -/
def C03_full : Prop :=
  ∀ (x : List ℤ) (t : PadType) (padlength : Option ℤ), 0 < x.length → (∀ L, padlength = some L → (x.length : ℤ) ≤ L) →
    ∀ xp nUp n1 n2, padsignal true x (padName t) padlength = .ok (xp, nUp, n1, n2) →
      ∀ E, IsExtension t x E → ∀ (p : ℕ) (h : p < xp.length), xp[p] = E ((p : ℤ) - n1)

/-- **C03 is false of the code**: the first of the four samples `padsignal([1,2], 'symmetric', padlength=2)` returns is 2, not 1, although nothing is padded on the left. -/
theorem C03_refuted : ¬ C03_full := by
  intro h
  obtain ⟨E, hE⟩ := exists_extension .symmetric ([1, 2] : List ℤ) (by simp)
  have h0 := h [1, 2] .symmetric (some 2) (by simp) (by simp) _ _ _ _ C02_symmetric_zero_left_refuted.1 E hE 0 (by simp)
  obtain ⟨xp, nUp, n1, n2, h1, -, -, -, -, -, h7, h8⟩ := C02_C03_padding_partial ([1, 2] : List ℤ) .symmetric (some 4) (by simp) (by simp) (by simp)
  have e : padsignal true ([1, 2] : List ℤ) "symmetric" (some 4) = .ok ([1, 1, 2, 2], 4, 1, 1) := rfl
  rw [show padName .symmetric = "symmetric" from rfl, e] at h1
  simp only [Except.ok.injEq, Prod.mk.injEq] at h1
  obtain ⟨rfl, rfl, rfl, rfl⟩ := h1
  have h1 := h8 E hE 1 (by simp)
  simp at h0 h1
  omega

/-- For `'symmetric'` the guard in `C02_C03_padding_partial` is exactly right: with an explicit
length `L ≥ N` the result has `L` samples iff `L` and `N` satisfy it. -/
theorem C02_symmetric_iff {α : Type} [Zero α] (x : List α) (hx : 0 < x.length) (L : ℤ)
    (hL : (x.length : ℤ) ≤ L) :
    (∃ xp nUp n1 n2, padsignal true x "symmetric" (some L) = .ok (xp, nUp, n1, n2) ∧
      (xp.length : ℤ) = L) ↔ ((x.length : ℤ) < L ∧ L ≤ 3 * x.length) := by
  constructor
  · rintro ⟨xp, nUp, n1, n2, h, hlen⟩
    obtain ⟨h1, h2, h3, h4, -⟩ := padWidths_facts x.length hx (some L) (by simpa using hL)
    set w := padWidths x.length (some L) with hw
    have h : (.ok (padSymmetric x w.2.1 w.2.2, w.1, w.2.1, w.2.2) : Py _) = .ok (xp, nUp, n1, n2) := h
    simp only [Except.ok.injEq, Prod.mk.injEq] at h
    obtain ⟨rfl, -, -, -⟩ := h
    have hw1 := h1 L rfl
    by_contra hc
    obtain ⟨b, hb⟩ := Int.eq_ofNat_of_zero_le h2
    obtain ⟨a, ha⟩ := Int.eq_ofNat_of_zero_le (show 0 ≤ w.2.1 by omega)
    rw [ha, hb] at hlen
    unfold padSymmetric at hlen
    rw [pyUpto_nat] at hlen
    rcases Nat.eq_zero_or_pos a with rfl | hapos
    · rw [show (-((0 : ℕ) : ℤ)) = ((0 : ℕ) : ℤ) by simp, pyFrom_nat] at hlen
      simp at hlen; omega
    · rw [pyFrom_neg _ a hapos] at hlen
      simp at hlen; omega
  · intro h
    obtain ⟨xp, nUp, n1, n2, h1, h2, h3, -⟩ := C02_C03_padding_partial x .symmetric (some L) hx
      (by simpa using hL) (by intro _ L' hL'; cases hL'; exact h)
    exact ⟨xp, nUp, n1, n2, h1, by rw [h3, h2 L rfl]⟩

/-- An unsupported scheme name is rejected, for numpy and for torch input. -/
theorem C02_unsupported_rejected {α : Type} [Zero α] (x : List α) (s : String) (L : Option ℤ)
    (isNumpy : Bool)
    (h : s ∉ (if isNumpy then ["zero", "reflect", "symmetric", "replicate", "wrap"]
      else ["zero", "reflect"])) :
    padsignal isNumpy x s L = .error .valueError := by
  have : parsePadType isNumpy s = .error .valueError := by
    cases isNumpy
    · simp at h
      unfold parsePadType
      simp only [Bool.false_eq_true, if_false]
      split <;> simp_all
    · simp at h
      unfold parsePadType
      simp only [if_true]
      split <;> simp_all
  unfold padsignal
  rw [this]; rfl

example : "mirror" ∉ (if true then ["zero", "reflect", "symmetric", "replicate", "wrap"]
      else ["zero", "reflect"]) := by simp

/-- Shrinking is refused: a requested length below the signal's raises `ValueError` for the
numpy-backed schemes. -/
theorem C02_shrink_rejected {α : Type} [Zero α] (x : List α) (t : PadType) (L : ℤ)
    (ht : t ≠ .symmetric) (hL : L + 1 < x.length) :
    padsignal true x (padName t) (some L) = .error .valueError := by
  have hw : (padWidths x.length (some L)).2.2 < 0 := by
    simp only [padWidths]; split <;> simp <;> omega
  unfold padsignal
  rw [parse_padName]
  set w := padWidths x.length (some L) with hw'
  have : padNumpy t x w.2.1 w.2.2 = .error .valueError := by
    cases t <;> simp_all [padNumpy, npPadZero, npPadIdx]
  change (do let xp ← padNumpy t x w.2.1 w.2.2; pure (xp, w.1, w.2.1, w.2.2) : Py _) = _
  rw [this]; rfl

example : (2 : ℤ) + 1 < ([1, 2, 3, 4] : List ℤ).length := by simp

end Ssq
