import Verif.Props.Refuse
import Verif.Props.LocalStft

/-!
# C177 for `ssq_stft`
-/
namespace Ssq

/-- **C177 for `ssq_stft`.** A call that succeeds raises `ValueError` if it is given frequencies that `infer_scaletype` does not take as linear, and a call with given
frequencies that succeeds has them taken as linear. -/
theorem C177_ssq_stft (lib : WinLib) (tiny : ℝ) (x : List ℝ) (a : SsqStftArgs) (d : FDtype) (v : List ℝ) :
    (∀ o st nv, ssqStft lib tiny x a = .ok o → inferScaletype d v = .ok (st, nv) → st ≠ .linear →
      ssqStft lib tiny x { a with ssqFreqs := some (d, v) } = .error .valueError) ∧
    ∀ o, ssqStft lib tiny x { a with ssqFreqs := some (d, v) } = .ok o → ∃ nv, inferScaletype d v = .ok (.linear, nv) := by
  constructor
  · intro o st nv h hi hst
    unfold ssqStft at h ⊢
    obtain ⟨r, hr, h⟩ := bind_ok h
    simp only
    rw [hr, ok_bind]
    cases r with
    | infinite => cases h
    | fin fs dt =>
      obtain ⟨u, hu, h⟩ := bind_ok h
      simp only
      rw [hu, ok_bind]
      have : checkLinearFreqs (some (d, v)) = .error .valueError := by
        unfold checkLinearFreqs
        simp only
        rw [hi, ok_bind, if_neg hst]
      rw [this, error_bind]
  · intro o h
    unfold ssqStft at h
    obtain ⟨r, hr, h⟩ := bind_ok h
    cases r with
    | infinite => cases h
    | fin fs dt =>
      obtain ⟨u, hu, h⟩ := bind_ok h
      obtain ⟨u', hl, h⟩ := bind_ok h
      unfold checkLinearFreqs at hl
      obtain ⟨q, hq, hl⟩ := bind_ok hl
      obtain ⟨st, nv⟩ := q
      simp only at hl
      split at hl
      · rename_i e
        exact ⟨nv, by rw [hq, e]⟩
      · cases hl

/-- Logarithmic and piecewise logarithmic frequencies. -/
example (x : List ℝ) (hx : 0 < x.length) : (∃ o, ssqStft onesLib 0 x exGate = .ok o) ∧
    ssqStft onesLib 0 x { exGate with ssqFreqs := some (.f64, [1, 2, 4]) } = .error .valueError ∧
    ssqStft onesLib 0 x { exGate with ssqFreqs := some (.f64, v6) } = .error .valueError := by
  obtain ⟨Tx, S, f, Sfs, h⟩ := exGate_run x hx
  exact ⟨⟨_, h⟩, (C177_ssq_stft onesLib 0 x exGate .f64 [1, 2, 4]).1 _ _ _ h infer124 (by simp),
    (C177_ssq_stft onesLib 0 x exGate .f64 v6).1 _ _ _ h infer_v6 (by simp)⟩

end Ssq
