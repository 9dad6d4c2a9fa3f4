import Verif.Props.Ridge
import Verif.Props.SuperposeTones

/-!
# C165: ridges of transforms whose rows are ordered by strength, and the tones recovered along them
-/
namespace Ssq
open Finset Complex

namespace Spec

/-- Row `f0` has energy in column `t`, and every other row has less than `1 - 2·eps` times as much. -/
def Strongest (eps : ℝ) (nF : ℕ) (E : ℕ → ℕ → ℝ) (t f0 : ℕ) : Prop :=
  f0 < nF ∧ 0 < E f0 t ∧ ∀ f < nF, f ≠ f0 → E f t < (1 - 2 * eps) * E f0 t

/-- Row `f` is not among the rows from `r - bw` to `r + bw - 1`. -/
def Outside (bw : ℤ) (r f : ℕ) : Prop := (f : ℤ) + bw < r ∨ (r : ℤ) + bw ≤ f

/-- The rows `rs 0, …, rs (n-1)` in descending order of strength: in every column, `rs k` is the strongest of the rows more than `bw` away from `rs 0, …, rs (k-1)`, and it is
one of these rows; all but the last are at row `bw` or above. -/
def RankedRows (eps : ℝ) (bw : ℤ) (nF nT n : ℕ) (E : ℕ → ℕ → ℝ) (rs : ℕ → ℕ) : Prop :=
  ∀ k < n, rs k < nF ∧ (k + 1 < n → bw ≤ rs k) ∧ (∀ j < k, Outside bw (rs j) (rs k)) ∧
    ∀ t < nT, 0 < E (rs k) t ∧ ∀ f < nF, f ≠ rs k → (∀ j < k, Outside bw (rs j) f) → E f t < (1 - 2 * eps) * E (rs k) t

end Spec

theorem strongest_cost (a : RidgeArgs) (E : ℕ → ℕ → ℝ) (hE : ∀ f t, 0 ≤ E f t) (t f0 : ℕ) (h : Spec.Strongest a.eps a.nF E t f0) (heps : 0 < a.eps) (he : a.eps ≤ 1)
    (f : ℕ) (hf : f < a.nF) (hne : f ≠ f0) : Spec.cellCost a E f0 t + a.eps < Spec.cellCost a E f t := by
  obtain ⟨hf0, hpos, hz⟩ := h
  have hn : 0 < a.nF := by omega
  obtain ⟨⟨g, hg, hge⟩, hmax⟩ := peak_spec hn E t
  have hpk : Spec.peak a.nF E t = E f0 t := by
    by_cases hgf : g = f0
    · rw [← hge, hgf]
    · have h1 := hmax f0 hf0
      have h2 := hz g hg hgf
      rw [← hge] at h1 ⊢
      nlinarith
  have hq : E f t / E f0 t < 1 - 2 * a.eps := by
    rw [div_lt_iff₀ hpos]
    exact hz f hf hne
  have hq0 : 0 ≤ E f t / E f0 t := div_nonneg (hE f t) hpos.le
  unfold Spec.cellCost
  rw [hpk, div_self hpos.ne']
  have h2 := Real.log_le_sub_one_of_pos (x := (E f t / E f0 t + a.eps) / (1 + a.eps)) (by positivity)
  rw [Real.log_div (by positivity) (by positivity)] at h2
  have h3 : (E f t / E f0 t + a.eps) / (1 + a.eps) < 1 - a.eps := by
    rw [div_lt_iff₀ (by linarith)]
    nlinarith
  linarith

/-- **C165, one ridge.** For every transform with at least as many columns as rows, jump penalty that is not negative, bandwidth, number of ridges and order of the parallel
iterations: a ridge for which one row of the remaining energy is the strongest in every column is that row, in every column. -/
theorem C165_strongest (a : RidgeArgs) (s : RidgeSched) (out : List Ridge) (hs : Spec.ValidSched a s) (heps : 0 < a.eps) (he : a.eps ≤ 1) (hp : 0 ≤ a.penalty)
    (hFT : a.nF ≤ a.nT) (h : extractRidges a s = .ok out) (k : ℕ) (hk : k < out.length) (f0 : ℕ)
    (hdom : ∀ t < a.nT, Spec.Strongest a.eps a.nF (Spec.remaining a out k) t f0) : ∀ t < a.nT, (out[k]).idx t = f0 := by
  obtain ⟨-, h2, h3⟩ := extract_spec h
  have hn : 0 < a.nF := by have := h2 (by omega); omega
  have hE := remaining_nonneg a out k
  have hj : ∀ f g, 0 ≤ Spec.jump a f g := by
    intro f g; unfold Spec.jump; split <;> positivity
  have hj0 : ∀ f, Spec.jump a f f = 0 := by
    intro f; unfold Spec.jump; split <;> ring
  have hidx := (h3 k hk).1
  generalize Spec.remaining a out k = E at hE hidx hdom
  have hcost : ∀ t < a.nT, ∀ f < a.nF, f ≠ f0 → Spec.cellCost a E f0 t + a.eps < Spec.cellCost a E f t := fun t ht f hf hne =>
    strongest_cost a E hE t f0 (hdom t ht) heps he f hf hne
  have hcost' : ∀ t < a.nT, ∀ f < a.nF, Spec.cellCost a E f0 t ≤ Spec.cellCost a E f t := fun t ht f hf => by
    by_cases hne : f = f0
    · rw [hne]
    · linarith [hcost t ht f hf hne]
  have hf0 : f0 < a.nF := (hdom 0 (by omega)).1
  have hlt := track_lt a s k E hn hs
  obtain ⟨V, h0, hrec, hpe, hv, hm⟩ := track_spec a s k E hn hs hE heps (a.nT - 1) (by omega)
    (fun t ht => ⟨f0, hf0, (hdom t (by omega)).2.1⟩) (hlt _)
  rw [hidx]
  have hlow : ∀ t < a.nT, ∀ f < a.nF, Spec.cellCost a E f t + ∑ u ∈ range t, Spec.cellCost a E f0 u ≤ V f t := by
    intro t
    induction t with
    | zero => intro _ f hf; rw [h0 f hf]; simp
    | succ t ih =>
      intro ht f hf
      obtain ⟨⟨g, hg, hge⟩, -⟩ := hrec f hf t (by omega)
      rw [hge, sum_range_succ]
      linarith [ih (by omega) g hg, hcost' t (by omega) g hg, hj f g]
  have hup : ∀ t < a.nT, V f0 t ≤ ∑ u ∈ range (t + 1), Spec.cellCost a E f0 u := by
    intro t
    induction t with
    | zero => intro _; rw [h0 f0 hf0]; simp
    | succ t ih =>
      intro ht
      have := (hrec f0 hf0 t (by omega)).2 f0 hf0
      rw [hj0] at this
      rw [sum_range_succ]
      linarith [ih (by omega)]
  have hlast : ridgeTrack a s k E (a.nT - 1) = f0 := by
    have hl := track_last a s k E (a.nT - 1) (by omega)
    have hcongr : ((List.range a.nF).map fun f : ℕ => ridgeFw a.nF a.nT (ridgePenalty a) (s.fw k) (ridgeCost a E) f (a.nT - 1)) =
        (List.range a.nF).map fun f : ℕ => some (V f (a.nT - 1)) := by
      apply List.map_congr_left
      intro f hf
      exact hpe f (List.mem_range.1 hf) _ le_rfl
    rw [hcongr] at hl
    obtain ⟨g1, g2⟩ := nfArgmin_some hn (fun f => V f (a.nT - 1))
    rw [Nat.mod_eq_of_lt (by omega)] at hl
    rw [← hl] at g1 g2
    by_contra hne
    have e1 := g2 f0 hf0
    have e2 := hlow (a.nT - 1) (by omega) _ g1
    have e3 := hup (a.nT - 1) (by omega)
    have e4 := hcost (a.nT - 1) (by omega) _ g1 hne
    rw [sum_range_succ] at e3
    linarith
  have key : ∀ n t, t + n + 1 = a.nT → ridgeTrack a s k E t = f0 := by
    intro n
    induction n with
    | zero => intro t ht; rw [show t = a.nT - 1 by omega]; exact hlast
    | succ n ih =>
      intro t ht
      have hmt := (hm t (by omega)).2
      rw [ih (t + 1) (by omega)] at hmt
      by_contra hne
      have e2 := hlow t (by omega) _ (hlt t)
      have e3 := hup (t + 1) (by omega)
      have e4 := hcost t (by omega) _ (hlt t) hne
      have e5 := hj f0 (ridgeTrack a s k E t)
      rw [sum_range_succ, sum_range_succ] at e3
      rw [abs_lt] at hmt
      linarith [hmt.1]
  intro t ht
  exact key (a.nT - 1 - t) t (by omega)

/-- **C165, all ridges.** For every transform with at least as many columns as rows, jump penalty that is not negative, positive bandwidth, number of ridges and order of the parallel
iterations: if rows `rs 0, rs 1, …` are ranked, ridge `k` is row `rs k` in every column, with the scale of that row and the energy of the transform. -/
theorem C165_ridges (a : RidgeArgs) (s : RidgeSched) (out : List Ridge) (hs : Spec.ValidSched a s) (heps : 0 < a.eps) (he : a.eps ≤ 1) (hp : 0 ≤ a.penalty)
    (hFT : a.nF ≤ a.nT) (hbw : 0 < a.bw) (h : extractRidges a s = .ok out) (rs : ℕ → ℕ)
    (hr : Spec.RankedRows a.eps a.bw a.nF a.nT a.nRidges (fun f t => ‖a.Tf f t‖ ^ 2) rs) :
    out.length = a.nRidges ∧ ∀ k, ∀ hk : k < out.length, ∀ t < a.nT,
      (out[k]).idx t = rs k ∧ (out[k]).f t = a.scales (rs k) ∧ (out[k]).e t = ‖a.Tf (rs k) t‖ ^ 2 := by
  obtain ⟨h1, h2, h3⟩ := extract_spec h
  have hcl : ∀ j, j + 1 < a.nRidges → ∀ f < a.nF, Spec.Cleared a (rs j) f ↔ ¬ Spec.Outside a.bw (rs j) f := by
    intro j hj f hf
    have := (hr j (by omega)).2.1 hj
    unfold Spec.Cleared Spec.Outside
    rw [if_neg (by omega), if_neg (by omega)]
    omega
  have key : ∀ k, ∀ hk : k < out.length, ∀ t < a.nT, (out[k]).idx t = rs k ∧
      Spec.remaining a out k (rs k) t = ‖a.Tf (rs k) t‖ ^ 2 := by
    intro k
    induction k using Nat.strong_induction_on with
    | _ k ih =>
      intro hk
      obtain ⟨r1, r2, r3, r4⟩ := hr k (by omega)
      have hrem : ∀ t < a.nT, ∀ f < a.nF, ((∀ j < k, Spec.Outside a.bw (rs j) f) ∧ Spec.remaining a out k f t = ‖a.Tf f t‖ ^ 2) ∨
          ((∃ j < k, ¬ Spec.Outside a.bw (rs j) f) ∧ Spec.remaining a out k f t = 0) := by
        intro t ht f hf
        by_cases ho : ∀ j < k, Spec.Outside a.bw (rs j) f
        · refine Or.inl ⟨ho, ?_⟩
          unfold Spec.remaining
          rw [if_neg]
          rintro ⟨j, hj, hjk, hc⟩
          rw [(ih j hjk hj t ht).1] at hc
          exact (hcl j (by omega) f hf).1 hc (ho j hjk)
        · push Not at ho
          refine Or.inr ⟨ho, ?_⟩
          obtain ⟨j, hjk, hno⟩ := ho
          unfold Spec.remaining
          rw [if_pos]
          refine ⟨j, by omega, hjk, ?_⟩
          rw [(ih j hjk (by omega) t ht).1]
          exact (hcl j (by omega) f hf).2 hno
      have hown : ∀ t < a.nT, Spec.remaining a out k (rs k) t = ‖a.Tf (rs k) t‖ ^ 2 := by
        intro t ht
        rcases hrem t ht (rs k) r1 with h' | ⟨⟨j, hj, hno⟩, -⟩
        · exact h'.2
        · exact absurd (r3 j hj) hno
      have hidx := C165_strongest a s out hs heps he hp hFT h k hk (rs k) (fun t ht => by
        obtain ⟨p1, p2⟩ := r4 t ht
        refine ⟨r1, by rw [hown t ht]; exact p1, fun f hf hne => ?_⟩
        rw [hown t ht]
        rcases hrem t ht f hf with ⟨ho, e⟩ | ⟨⟨j, hj, hno⟩, e⟩
        · rw [e]
          exact p2 f hf hne ho
        · rw [e]
          have hlt : 1 - 2 * a.eps > 0 := by
            have q := (hr j (by omega)).2.1 (by omega)
            have hne' : rs k ≠ rs j := by
              rintro e'
              have := r3 j hj
              unfold Spec.Outside at this
              omega
            obtain ⟨-, -, -, q4⟩ := hr j (by omega)
            have q5 := (q4 t ht).2 (rs k) r1 hne' (fun i hi => r3 i (by omega))
            have q6 := (q4 t ht).1
            by_contra hcon
            have : (1 - 2 * a.eps) * ‖a.Tf (rs j) t‖ ^ 2 ≤ 0 := mul_nonpos_of_nonpos_of_nonneg (not_lt.1 hcon) q6.le
            simp only at q5
            linarith
          exact mul_pos hlt p1)
      exact fun t ht => ⟨hidx t ht, hown t ht⟩
  refine ⟨h1, fun k hk t ht => ⟨(key k hk t ht).1, ?_, ?_⟩⟩
  · rw [(h3 k hk).2.1, (key k hk t ht).1]
  · rw [(h3 k hk).2.2, (key k hk t ht).1, (key k hk t ht).2]

namespace Spec
/-- The rows of the tones are far enough apart for ridges of half-width `bw`, and the tones are in descending order of strength `|gain·amplitude|`. -/
def RankedTones (eps : ℝ) (bw : ℤ) (M C : ℕ) (A g : ℕ → ℝ) (rs : ℕ → ℕ) : Prop :=
  (∀ c < C, rs c < M ∧ g c * A c ≠ 0 ∧ (c + 1 < C → bw ≤ rs c)) ∧
  ∀ c < C, ∀ d < c, Outside bw (rs d) (rs c) ∧ (g c * A c) ^ 2 < (1 - 2 * eps) * (g d * A d) ^ 2
end Spec

/-- The energy of a row that holds one tone. -/
theorem tone_energy {N C M : ℕ} {k : ℕ → ℕ} {A φ g : ℕ → ℝ} {rs : ℕ → ℕ} {Tx : ℤ → ℕ → ℂ} (hT : Spec.TonesInRows N C M k A φ g rs Tx)
    (hinj : ∀ c < C, ∀ d < C, rs c = rs d → c = d) (hM : ∀ c < C, rs c < M) (c : ℕ) (hc : c < C) (j : ℕ) (hj : j < N) : ‖Tx (rs c) j‖ ^ 2 = (g c * A c) ^ 2 / 4 := by
  rw [hT.1 (rs c) (hM c hc) j hj, sum_eq_single_of_mem c (mem_range.2 hc) fun d hd hne => if_neg fun e => hne (hinj d (mem_range.1 hd) c hc e.symm), if_pos rfl,
    norm_mul, norm_mul, Complex.norm_exp_ofReal_mul_I, mul_one, Complex.norm_real, Complex.norm_real, Real.norm_eq_abs, Real.norm_eq_abs, mul_pow, sq_abs, sq_abs]
  ring

theorem tone_silent {N C M : ℕ} {k : ℕ → ℕ} {A φ g : ℕ → ℝ} {rs : ℕ → ℕ} {Tx : ℤ → ℕ → ℂ} (hT : Spec.TonesInRows N C M k A φ g rs Tx) (f : ℕ) (hf : f < M)
    (hne : ∀ c < C, f ≠ rs c) (j : ℕ) (hj : j < N) : Tx f j = 0 := by
  rw [hT.1 f hf j hj]
  exact sum_eq_zero fun c hc => if_neg (hne c (mem_range.1 hc))

/-- **C165, tones.** For every transform that holds tones in rows of their own: `extract_ridges` with as many ridges as tones returns, for every jump penalty that is not
negative and every order of the parallel iterations, the rows of the tones from the strongest to the weakest, and `issq_cwt` along the returned ridges with width 0 returns
the tones, each times its gain over `css`, and an empty remainder. -/
theorem C165_tones (N C M : ℕ) (hC : 0 < C) (hM : 2 ≤ M) (hMN : M ≤ N) (k : ℕ → ℕ) (A φ g : ℕ → ℝ) (rs : ℕ → ℕ) (Tx : ℤ → ℕ → ℂ)
    (hT : Spec.TonesInRows N C M k A φ g rs Tx) (a : RidgeArgs) (s : RidgeSched) (hs : Spec.ValidSched a s) (heps : 0 < a.eps) (he : a.eps < 1 / 2) (hp : 0 ≤ a.penalty)
    (hbw : 0 < a.bw) (haF : a.nF = M) (haT : a.nT = N) (haX : ∀ r j : ℕ, a.Tf r j = Tx r j) (haC : a.nRidges = C) (hr : Spec.RankedTones a.eps a.bw M C A g rs) :
    ∃ out, extractRidges a s = .ok out ∧ out.length = C ∧
      (∀ c, ∀ hc : c < out.length, ∀ t < N, (out[c]).idx t = rs c ∧ (out[c]).f t = a.scales (rs c) ∧ (out[c]).e t = (g c * A c) ^ 2 / 4) ∧
      ∀ css : ℝ, ∃ xs, issqCwt M N (fun r j => Tx r j) css (some (.twoD N C fun m c => (((out[c]?).map fun q => q.idx m).getD 0 : ℕ))) (some (.twoD N C fun _ _ => 0)) =
          .ok (.comps xs) ∧ xs.length = C + 1 ∧ (∀ x ∈ xs, x.length = N) ∧
        (∀ c < C, ∀ m < N, (xs.getD c []).getD m 0 = g c / css * (A c * Real.cos (2 * Real.pi * k c * m / N + φ c))) ∧
        ∀ m < N, (xs.getD C []).getD m 0 = 0 := by
  obtain ⟨hr1, hr2⟩ := hr
  have hout : ∀ c < C, ∀ d < C, c ≠ d → rs c ≠ rs d := by
    intro c hc d hd hne e
    rcases lt_or_gt_of_ne hne with hlt | hlt
    · have := (hr2 d hd c hlt).1
      unfold Spec.Outside at this
      omega
    · have := (hr2 c hc d hlt).1
      unfold Spec.Outside at this
      omega
  have hinj : ∀ c < C, ∀ d < C, rs c = rs d → c = d := fun c hc d hd e => by
    by_contra hne
    exact hout c hc d hd hne e
  have hen := fun c hc j hj => tone_energy hT hinj (fun c hc => (hr1 c hc).1) c hc j hj
  have hex : ∃ out, extractRidges a s = .ok out := by
    unfold extractRidges
    rw [if_neg (by omega), if_neg (by omega), if_neg (by omega)]
    exact ⟨_, rfl⟩
  obtain ⟨out, h⟩ := hex
  have hlt : 0 < 1 - 2 * a.eps := by linarith
  obtain ⟨hl, hall⟩ := C165_ridges a s out hs heps (by linarith) hp (by omega) hbw h rs (by
    intro c hc
    rw [haC] at hc
    rw [haC, haF, haT]
    obtain ⟨r1, r2, r3⟩ := hr1 c hc
    refine ⟨r1, r3, fun j hj => (hr2 c hc j hj).1, fun t ht => ?_⟩
    have hpos : 0 < ‖a.Tf (rs c) t‖ ^ 2 := by
      rw [haX, hen c hc t ht]
      positivity
    refine ⟨hpos, fun f hf hne ho => ?_⟩
    by_cases hx : ∃ d < C, f = rs d
    · obtain ⟨d, hd, rfl⟩ := hx
      have hcd : c < d := by
        rcases lt_trichotomy c d with h' | h' | h'
        · exact h'
        · exact absurd (by rw [h']) hne
        · have := ho d h'
          unfold Spec.Outside at this
          omega
      simp only [haX]
      rw [hen c hc t ht, hen d hd t ht]
      linarith [(hr2 d hd c hcd).2]
    · push Not at hx
      simp only [haX] at hpos ⊢
      rw [tone_silent hT f hf hx t ht]
      simp only [norm_zero, ne_eq, OfNat.ofNat_ne_zero, not_false_eq_true, zero_pow]
      exact mul_pos hlt hpos)
  refine ⟨out, h, by omega, fun c hc t ht => ?_, fun css => ?_⟩
  · obtain ⟨e1, e2, e3⟩ := hall c hc t (by omega)
    refine ⟨e1, e2, ?_⟩
    rw [e3, haX, hen c (by omega) t ht]
  · obtain ⟨xs, x1, x2, x3, x4, x5⟩ := C43_contents M N (fun r j => Tx r j) css C (fun m c => (((out[c]?).map fun q => q.idx m).getD 0 : ℕ)) (fun _ _ => 0) hC
    obtain ⟨ys, y1, y2, y3, y4, y5⟩ := C43_contents M N (fun r j => Tx r j) css C (fun _ c => (rs c : ℤ)) (fun _ _ => 0) hC
    obtain ⟨zs, z1, z2, z3, z4, z5⟩ := hT.2 css
    rw [y1] at z1
    simp only [Except.ok.injEq, Inverse.comps.injEq] at z1
    subst z1
    have hcc : ∀ c < C, ∀ m < N, ((((out[c]?).map fun q => q.idx m).getD 0 : ℕ) : ℤ) = rs c := by
      intro c hc m hm
      rw [List.getElem?_eq_getElem (show c < out.length by omega)]
      simp only [Option.map_some, Option.getD_some]
      rw [(hall c (by omega) m (by omega)).1]
    refine ⟨xs, x1, x2, x3, fun c hc m hm => ?_, fun m hm => ?_⟩
    · rw [x4 c hc m hm, hcc c hc m hm, ← y4 c hc m hm, z4 c hc m hm,
        sum_eq_single_of_mem c (mem_range.2 hc) fun d hd hne => if_neg fun e => hne (hinj d (mem_range.1 hd) c hc e), if_pos rfl]
    · have hiff : ∀ r, (∃ n < C, Spec.InBand M ((((out[n]?).map fun q => q.idx m).getD 0 : ℕ) : ℤ) 0 r) ↔ ∃ n < C, Spec.InBand M (rs n) 0 r := by
        intro r
        constructor
        · rintro ⟨n, hn, hb⟩
          exact ⟨n, hn, by rwa [hcc n hn m hm] at hb⟩
        · rintro ⟨n, hn, hb⟩
          exact ⟨n, hn, by rwa [hcc n hn m hm]⟩
      refine (x5 m hm).trans (Eq.trans ?_ ((y5 m hm).symm.trans (z5 m hm)))
      refine congrArg _ (sum_congr rfl fun r _ => ?_)
      by_cases hb : ∃ n < C, Spec.InBand M (rs n) 0 r
      · rw [if_pos ((hiff r).2 hb), if_pos hb]
      · rw [if_neg (mt (hiff r).1 hb), if_neg hb]


namespace Spec
/-- What `extract_ridges` and `issq_cwt` make of a transform `Tx` of `M` rows and `N` columns that consists of the tones `k`, `A`, `φ` with gains `g` in rows `rs`: for all
arguments that suit the tones' rows and strengths, the ridges are the rows of the tones, with their energies, and inversion along them returns the tones. -/
def TonesTracked (N C M : ℕ) (k : ℕ → ℕ) (A φ g : ℕ → ℝ) (rs : ℕ → ℕ) (Tx : ℤ → ℕ → ℂ) : Prop :=
  ∀ (a : RidgeArgs) (s : RidgeSched), ValidSched a s → 0 < a.eps → a.eps < 1 / 2 → 0 ≤ a.penalty → 0 < a.bw → a.nF = M → a.nT = N →
    (∀ r j : ℕ, a.Tf r j = Tx r j) → a.nRidges = C → RankedTones a.eps a.bw M C A g rs →
    ∃ out, extractRidges a s = .ok out ∧ out.length = C ∧
      (∀ c, ∀ hc : c < out.length, ∀ t < N, (out[c]).idx t = rs c ∧ (out[c]).f t = a.scales (rs c) ∧ (out[c]).e t = (g c * A c) ^ 2 / 4) ∧
      ∀ css : ℝ, ∃ xs, issqCwt M N (fun r j => Tx r j) css (some (.twoD N C fun m c => (((out[c]?).map fun q => q.idx m).getD 0 : ℕ))) (some (.twoD N C fun _ _ => 0)) =
          .ok (.comps xs) ∧ xs.length = C + 1 ∧ (∀ x ∈ xs, x.length = N) ∧
        (∀ c < C, ∀ m < N, (xs.getD c []).getD m 0 = g c / css * (A c * Real.cos (2 * Real.pi * k c * m / N + φ c))) ∧
        ∀ m < N, (xs.getD C []).getD m 0 = 0
end Spec

/-- **C165, the whole chain, linear frequencies.** `ssq_cwt` of a sum of separated tones (as in `C154_tones_linear`), `extract_ridges` of its `Tx`, and `issq_cwt` along the
extracted ridges: the ridges are the rows whose frequencies are nearest to the tones', from the strongest tone to the weakest, and the inverse returns the tones up to gains. -/
theorem C165_cwt_linear (N C : ℕ) (hC : 0 < C) (k : ℕ → ℕ) (A φ : ℕ → ℝ) (hk0 : ∀ c < C, 0 < k c) (hk : ∀ c < C, 2 * k c < N) (a : SsqCwtArgs)
    (hp : a.padtype = none) (lo hi : ℝ) (hlo : 0 < lo) (hb : Spec.Passband a.wavelet.fn.eval lo hi) (hre : ∀ w, (a.wavelet.fn.eval w).im = 0)
    (hs : Spec.Separated C k lo hi) (hg : 0 < a.gamma.getD (10 * a.eps)) (hsq : a.squeezing = .sum) (hfl : a.flipud = true)
    (hlay : Spec.CwtLinearFreqs N a) (o : SsqCwtOut) (h : ssqCwt (Spec.mix N C fun c => Spec.tone N (k c) (A c) (φ c)) a = .ok o) (hpos : ∀ s ∈ o.scales, 0 < s)
    (f0 d : ℝ) (hgrid : Spec.Uniform o.freqs.reverse f0 d) (hd : eps64 ≤ d) (hlen : o.freqs.length = o.scales.length) (hM : 2 ≤ o.scales.length)
    (hMN : o.scales.length ≤ N) :
    ∃ fs dt st nv, processFsT a.fs a.t N = .ok (.fin fs dt) ∧ inferScaletype a.dtype o.scales = .ok (st, nv) ∧
      ∃ rs : ℕ → ℕ, (∀ c < C, Spec.Nearest o.freqs (k c * fs / N) (rs c)) ∧
        Spec.TonesTracked N C o.scales.length k A φ (fun c => Spec.toneGain a N o.scales st nv (k c) (A c)) rs o.Tx := by
  obtain ⟨fs, dt, st, nv, h1, h2, rs, h3, h4⟩ := C154_tones_linear N C hC k A φ hk0 hk a hp lo hi hlo hb hre hs hg hsq hfl hlay o h hpos f0 d hgrid hd hlen
  exact ⟨fs, dt, st, nv, h1, h2, rs, h3, fun b s e1 e2 e3 e4 e5 e6 e7 e8 e9 e10 => C165_tones N C _ hC hM hMN k A φ _ rs o.Tx h4 b s e1 e2 e3 e4 e5 e6 e7 e8 e9 e10⟩

/-- **C165, the whole chain, logarithmic frequencies.** As `C165_cwt_linear`, for a logarithmic grid and the nearest frequency in log-frequency. -/
theorem C165_cwt_log (N C : ℕ) (hC : 0 < C) (k : ℕ → ℕ) (A φ : ℕ → ℝ) (hk0 : ∀ c < C, 0 < k c) (hk : ∀ c < C, 2 * k c < N) (a : SsqCwtArgs)
    (hp : a.padtype = none) (lo hi : ℝ) (hlo : 0 < lo) (hb : Spec.Passband a.wavelet.fn.eval lo hi) (hre : ∀ w, (a.wavelet.fn.eval w).im = 0)
    (hs : Spec.Separated C k lo hi) (hg : 0 < a.gamma.getD (10 * a.eps)) (hsq : a.squeezing = .sum) (hfl : a.flipud = true) (hth : 0 < a.th)
    (hlay : Spec.CwtLogFreqs N a) (o : SsqCwtOut) (h : ssqCwt (Spec.mix N C fun c => Spec.tone N (k c) (A c) (φ c)) a = .ok o) (hpos : ∀ s ∈ o.scales, 0 < s)
    (hgrid : Spec.LogGrid o.freqs.reverse) (hlen : o.freqs.length = o.scales.length) (hM : 2 ≤ o.scales.length) (hMN : o.scales.length ≤ N) :
    ∃ fs dt st nv, processFsT a.fs a.t N = .ok (.fin fs dt) ∧ inferScaletype a.dtype o.scales = .ok (st, nv) ∧
      ∃ rs : ℕ → ℕ, (∀ c < C, Spec.NearestLog o.freqs (k c * fs / N) (rs c)) ∧
        Spec.TonesTracked N C o.scales.length k A φ (fun c => Spec.toneGain a N o.scales st nv (k c) (A c)) rs o.Tx := by
  obtain ⟨fs, dt, st, nv, h1, h2, rs, h3, h4⟩ := C154_tones_log N C hC k A φ hk0 hk a hp lo hi hlo hb hre hs hg hsq hfl hth hlay o h hpos hgrid hlen
  exact ⟨fs, dt, st, nv, h1, h2, rs, h3, fun b s e1 e2 e3 e4 e5 e6 e7 e8 e9 e10 => C165_tones N C _ hC hM hMN k A φ _ rs o.Tx h4 b s e1 e2 e3 e4 e5 e6 e7 e8 e9 e10⟩

/-! ### A concrete call -/

/-- Two tones of 1 and 3 cycles in 8 samples, amplitudes 8 and 1. -/
noncomputable def exRanked : List ℝ := Spec.mix 8 2 fun c => Spec.tone 8 (1 + 2 * c) (8 - 7 * c) 0

/-- The hypotheses of `C165_cwt_linear` and of `Spec.TonesTracked` are met by two tones of 1 and 3 Hz with half-width 1 and the default penalty: the first ridge is row 2
(1 Hz), the second row 0 (3 Hz), and `issq_cwt` along them, with `css = log 2`, returns the 1 Hz tone and twice the 3 Hz tone. -/
example : ∃ o, ssqCwt exRanked exBand = .ok o ∧ o.freqs = [3, 2, 1] ∧
    ∀ b : RidgeArgs, b = ⟨3, 8, fun r j => o.Tx r j, fun r => (r : ℝ) + 1, 2, 2, 1, false, 1 / 2 ^ 52⟩ →
    ∃ out, extractRidges b (serialSched 3) = .ok out ∧ ∃ h0 : 1 < out.length, ∀ m < 8,
      (out[0]).idx m = 2 ∧ (out[1]).idx m = 0 ∧
      ∃ xs, issqCwt 3 8 (fun r j => o.Tx r j) (Real.log 2) (some (.twoD 8 2 fun m c => (((out[c]?).map fun q => q.idx m).getD 0 : ℕ))) (some (.twoD 8 2 fun _ _ => 0)) =
        .ok (.comps xs) ∧ (xs.getD 0 []).getD m 0 = 8 * Real.cos (2 * Real.pi * m / 8) ∧ (xs.getD 1 []).getD m 0 = 2 * Real.cos (2 * Real.pi * 3 * m / 8) := by
  obtain ⟨o, h, hsc, hf⟩ := exBand_ok exRanked (by simp [exRanked, mix_length])
  refine ⟨o, h, hf, ?_⟩
  obtain ⟨fs, dt, st, nv, h1, h2, rs, hn, hT⟩ := C165_cwt_linear 8 2 (by norm_num) (fun c => 1 + 2 * c) (fun c => 8 - 7 * c) (fun _ => 0)
    (fun c _ => by omega) (fun c hc => by omega) exBand rfl 2 6 (by norm_num) exBand_band (fun w => by simp [exBand, WFn.eval])
    (by
      intro c hc d hd hcd
      have : (c = 0 ∧ d = 1) ∨ (c = 1 ∧ d = 0) := by omega
      rcases this with ⟨rfl, rfl⟩ | ⟨rfl, rfl⟩
      · left; norm_num
      · right; norm_num)
    (by simp [exBand, exSsqL, exSsq]) rfl rfl ⟨.none, infer123⟩ o h
    (by rw [hsc]; simp) 1 1 (by
      rw [hf]
      intro i hi
      simp only [List.reverse_cons, List.reverse_nil, List.nil_append, List.cons_append, List.length_cons,
        List.length_nil] at hi
      interval_cases i <;> norm_num) (by norm_num [eps64]) (by rw [hf, hsc]; rfl) (by rw [hsc]; simp) (by rw [hsc]; simp)
  have hfs : fs = 8 := by
    simp only [exBand, exSsqL, exSsq, processFsT] at h1
    rw [if_neg (by norm_num)] at h1
    simp only [Except.ok.injEq, Rate.fin.injEq] at h1
    exact h1.1.symm
  rw [hfs, hf] at hn
  have h0 : rs 0 = 2 := by
    obtain ⟨hlt, hmin⟩ := hn 0 (by norm_num)
    have h0 := hmin 2 (by simp)
    simp only [List.length_cons, List.length_nil] at hlt
    norm_num at h0
    generalize rs 0 = r at *
    interval_cases r
    · exfalso; norm_num at h0
    · exfalso; norm_num at h0
    · rfl
  have h3 : rs 1 = 0 := by
    obtain ⟨hlt, hmin⟩ := hn 1 (by norm_num)
    have h0 := hmin 0 (by simp)
    simp only [List.length_cons, List.length_nil] at hlt
    norm_num at h0
    generalize rs 1 = r at *
    interval_cases r
    · rfl
    · exfalso; norm_num at h0
    · exfalso; norm_num at h0
  rw [hsc] at h2
  have h2' : inferScaletype exBand.dtype [1, 2, 4] = .ok (.log, .int 1) := infer124
  rw [h2] at h2'
  simp only [Except.ok.injEq, Prod.mk.injEq] at h2'
  obtain ⟨rfl, rfl⟩ := h2'
  have hpi := Real.pi_gt_three
  have hpi' := Real.pi_lt_d2
  have hin : ∀ w : ℝ, 2 < w → w < 6 → exBand.wavelet.fn.eval w = ((1 : ℝ) : ℂ) := by
    intro w h h'
    simp only [exBand, WFn.eval, if_pos (And.intro h h')]
  have hout : ∀ w : ℝ, (w < 2 ∨ 6 < w) → exBand.wavelet.fn.eval w = ((0 : ℝ) : ℂ) := by
    intro w h
    simp only [exBand, WFn.eval]
    rw [if_neg (by rintro ⟨h1, h2⟩; rcases h with h | h <;> linarith)]
  have hkept : ∀ z : ℝ, Spec.KeptMag exBand z ↔ 1 / 100 < z := fun z => by
    simp [Spec.KeptMag, exBand, exSsqL, exSsq]
  have g0 : Spec.toneGain exBand 8 o.scales .log (.int 1) (1 + 2 * 0) (8 - 7 * (0 : ℕ)) = Real.log 2 := by
    simp only [hsc, Spec.toneGain, List.length_cons, List.length_nil, sum_range_succ, sum_range_zero, Spec.scaleMeasure, List.getD_cons_zero, List.getD_cons_succ,
      hkept]
    rw [hout _ (Or.inl (by push_cast; linarith)), hout _ (Or.inl (by push_cast; linarith)), hin _ (by push_cast; linarith) (by push_cast; linarith)]
    simp only [Complex.ofReal_re]
    norm_num
  have g1 : Spec.toneGain exBand 8 o.scales .log (.int 1) (1 + 2 * 1) (8 - 7 * (1 : ℕ)) = 2 * Real.log 2 := by
    simp only [hsc, Spec.toneGain, List.length_cons, List.length_nil, sum_range_succ, sum_range_zero, Spec.scaleMeasure, List.getD_cons_zero, List.getD_cons_succ,
      hkept]
    rw [hin _ (by push_cast; linarith) (by push_cast; linarith), hin _ (by push_cast; linarith) (by push_cast; linarith), hout _ (Or.inr (by push_cast; linarith))]
    simp only [Complex.ofReal_re]
    norm_num
    ring
  have hlog : Real.log 2 ≠ 0 := (Real.log_pos (by norm_num)).ne'
  rintro b rfl
  obtain ⟨out, ho, hol, hix, hinv⟩ := hT ⟨3, 8, fun r j => o.Tx r j, fun r => (r : ℝ) + 1, 2, 2, 1, false, 1 / 2 ^ 52⟩ (serialSched 3) (serial_valid _) (by norm_num)
    (by norm_num) (by norm_num) (by norm_num) (by rw [hsc]; rfl) rfl (fun _ _ => rfl) rfl (by
      constructor
      · intro c hc
        interval_cases c
        · rw [h0]; simp only [g0]; rw [hsc]
          refine ⟨by norm_num, mul_ne_zero hlog (by norm_num), by norm_num⟩
        · rw [h3]; simp only [g1]; rw [hsc]
          refine ⟨by norm_num, mul_ne_zero (mul_ne_zero two_ne_zero hlog) (by norm_num), by norm_num⟩
      · intro c hc d hd
        have : c = 1 ∧ d = 0 := by omega
        obtain ⟨rfl, rfl⟩ := this
        simp only [h0, h3, g0, g1]
        refine ⟨Or.inl (by norm_num), ?_⟩
        have : 0 < Real.log 2 ^ 2 := by positivity
        norm_num
        nlinarith)
  refine ⟨out, ho, by omega, fun m hm => ⟨?_, ?_, ?_⟩⟩
  · rw [(hix 0 (by omega) m hm).1, h0]
  · rw [(hix 1 (by omega) m hm).1, h3]
  · obtain ⟨xs, x1, -, -, x4, -⟩ := hinv (Real.log 2)
    rw [hsc] at x1
    refine ⟨xs, x1, ?_, ?_⟩
    · rw [x4 0 (by norm_num) m hm]; simp only [g0]; rw [div_self hlog]
      norm_num
    · rw [x4 1 (by norm_num) m hm]; simp only [g1]; rw [mul_div_assoc, div_self hlog]
      norm_num

end Ssq
