import Verif.Props.Istft
import Verif.Props.Icwt
import Verif.Props.SsqStft

/-!
# C179: the inverses are linear
-/
namespace Ssq
open Finset

namespace Spec

/-- `α x + β y` of signals of one length. -/
def comb (α β : ℝ) (x y : List ℝ) : List ℝ := List.zipWith (fun u v : ℝ => α * u + β * v) x y

/-- `α S + β T` of transforms of one shape. -/
noncomputable def combC (α β : ℝ) (S T : List (List ℂ)) : List (List ℂ) :=
  List.zipWith (List.zipWith fun u v : ℂ => (α : ℂ) * u + (β : ℂ) * v) S T

/-- Two arrays have the same shape. -/
def SameShape (S T : List (List ℂ)) : Prop := List.Forall₂ (fun c d => c.length = d.length) S T

/-- `α x + β y` of inversions: of the signals, or component by component. -/
def combI (α β : ℝ) : Inverse → Inverse → Inverse
  | .full x, .full y => .full (comb α β x y)
  | .comps xs, .comps ys => .comps (List.zipWith (comb α β) xs ys)
  | a, _ => a

end Spec
open Spec

section lists
variable {α β : ℝ}

theorem comb_length {x y : List ℝ} (h : x.length = y.length) : (comb α β x y).length = x.length := by
  simp [comb, h]

theorem comb_getElem? {x y : List ℝ} (h : x.length = y.length) (i : ℕ) (hi : i < x.length) :
    (comb α β x y)[i]? = some (α * x.getD i 0 + β * y.getD i 0) := by
  unfold comb
  rw [List.getElem?_eq_getElem (by simp [← h]; exact hi), List.getElem_zipWith,
    List.getD_eq_getElem _ _ hi, List.getD_eq_getElem _ _ (h ▸ hi)]

theorem comb_ext {x y z : List ℝ} (h : x.length = y.length) (hz : z.length = x.length)
    (hv : ∀ i < x.length, z.getD i 0 = α * x.getD i 0 + β * y.getD i 0) : z = comb α β x y := by
  apply List.ext_getElem?
  intro i
  by_cases hi : i < x.length
  · rw [comb_getElem? h i hi, ← hv i hi, List.getElem?_eq_getElem (by omega), List.getD_eq_getElem _ _ (by omega)]
  · rw [List.getElem?_eq_none (by omega), List.getElem?_eq_none (by rw [comb_length h]; omega)]

theorem combC_getD {c d : List ℂ} (h : c.length = d.length) (i : ℕ) :
    (List.zipWith (fun u v : ℂ => (α : ℂ) * u + (β : ℂ) * v) c d).getD i 0 = (α : ℂ) * c.getD i 0 + (β : ℂ) * d.getD i 0 := by
  by_cases hi : i < c.length
  · rw [List.getD_eq_getElem _ _ (by simp [← h]; exact hi), List.getElem_zipWith,
      List.getD_eq_getElem _ _ hi, List.getD_eq_getElem _ _ (h ▸ hi)]
  · rw [List.getD_eq_default _ _ (by simp [← h]; omega), List.getD_eq_default _ _ (by omega),
      List.getD_eq_default _ _ (by omega)]
    ring

theorem comb_rotate {x y : List ℝ} (h : x.length = y.length) (n : ℕ) :
    (comb α β x y).rotate n = comb α β (x.rotate n) (y.rotate n) := by
  unfold comb
  exact (List.zipWith_rotate_distrib _ _ _ _ h).symm ▸ rfl

theorem comb_fftshift {x y : List ℝ} (h : x.length = y.length) :
    fftshiftL (comb α β x y) = comb α β (fftshiftL x) (fftshiftL y) := by
  unfold fftshiftL
  rw [comb_length h, comb_rotate h, h]

theorem irfft_comb (n : ℕ) {c d : List ℂ} (h : c.length = d.length) :
    irfftL n (List.zipWith (fun u v : ℂ => (α : ℂ) * u + (β : ℂ) * v) c d) = comb α β (irfftL n c) (irfftL n d) := by
  apply comb_ext
  · simp [irfftL]
  · simp [irfftL]
  · intro i hi
    have hi' : i < n := by simpa [irfftL] using hi
    have hg : ∀ l : List ℂ, (irfftL n l).getD i 0 = ((l.getD 0 0).re + (∑ k ∈ Icc 1 ((n - 1) / 2), 2 * (l.getD k 0 * tw n (i * k)).re)
      + (if n % 2 = 0 then (l.getD (n / 2) 0 * tw n (i * (n / 2 : ℕ))).re else 0)) / n := by
      intro l
      rw [List.getD_eq_getElem _ _ (by simpa [irfftL] using hi')]
      simp [irfftL]
    have hre : ∀ u v t : ℂ, (((α : ℂ) * u + (β : ℂ) * v) * t).re = α * (u * t).re + β * (v * t).re := by
      intro u v t; simp; ring
    rw [hg, hg, hg]
    simp only [combC_getD h, hre]
    have h0 : ((α : ℂ) * c.getD 0 0 + (β : ℂ) * d.getD 0 0).re = α * (c.getD 0 0).re + β * (d.getD 0 0).re := by simp
    have hsum : ∑ k ∈ Icc 1 ((n - 1) / 2), 2 * (α * (c.getD k 0 * tw n (i * k)).re + β * (d.getD k 0 * tw n (i * k)).re)
        = α * (∑ k ∈ Icc 1 ((n - 1) / 2), 2 * (c.getD k 0 * tw n (i * k)).re) +
          β * (∑ k ∈ Icc 1 ((n - 1) / 2), 2 * (d.getD k 0 * tw n (i * k)).re) := by
      rw [mul_sum, mul_sum, ← sum_add_distrib]
      exact sum_congr rfl fun k _ => by ring
    rw [h0, hsum]
    split <;> ring

theorem comb_mul {x y w : List ℝ} : List.zipWith (· * ·) (comb α β x y) w =
    comb α β (List.zipWith (· * ·) x w) (List.zipWith (· * ·) y w) := by
  unfold comb
  induction x generalizing y w with
  | nil => simp
  | cons a x ih =>
    cases y with
    | nil => simp
    | cons b y =>
      cases w with
      | nil => simp
      | cons c w => simp only [List.zipWith_cons_cons, ih]; congr 1; ring

theorem comb_add {x y u v : List ℝ} : List.zipWith (· + ·) (comb α β x y) (comb α β u v) =
    comb α β (List.zipWith (· + ·) x u) (List.zipWith (· + ·) y v) := by
  unfold comb
  induction x generalizing y u v with
  | nil => simp
  | cons a x ih =>
    cases y with
    | nil => simp
    | cons b y =>
      cases u with
      | nil => simp
      | cons c u =>
        cases v with
        | nil => simp
        | cons d v => simp only [List.zipWith_cons_cons, ih]; congr 1; ring

theorem comb_take {x y : List ℝ} (n : ℕ) : (comb α β x y).take n = comb α β (x.take n) (y.take n) := by
  unfold comb; exact List.take_zipWith

theorem comb_drop {x y : List ℝ} (n : ℕ) : (comb α β x y).drop n = comb α β (x.drop n) (y.drop n) := by
  unfold comb; exact List.drop_zipWith

theorem comb_append {x y u v : List ℝ} (h : x.length = y.length) :
    comb α β x y ++ comb α β u v = comb α β (x ++ u) (y ++ v) := by
  unfold comb; exact (List.zipWith_append h).symm

theorem comb_addSlice {x y v w x' y' : List ℝ} (n : ℕ) (h : x.length = y.length) (hv : v.length = w.length)
    (hx : addSlice x n v = .ok x') (hy : addSlice y n w = .ok y') :
    addSlice (comb α β x y) n (comb α β v w) = .ok (comb α β x' y') ∧ x'.length = y'.length := by
  have hl : ((y.drop n).take v.length).length = ((x.drop n).take v.length).length := by simp [h]
  unfold addSlice at hx hy ⊢
  simp only [comb_length hv, comb_drop, comb_take, ← hv] at hx hy ⊢
  rw [comb_length (by rw [hl])]
  rw [hl] at hy
  split at hx
  · rename_i hc
    rw [if_pos hc] at hy
    cases hx; cases hy
    rw [if_pos hc, comb_add, comb_append (by simp [h]), comb_append (by simp [h, hv])]
    exact ⟨rfl, by simp [h, hv]⟩
  · rename_i hc
    rw [if_neg hc] at hy
    split at hx
    · rename_i h1
      rw [if_pos h1] at hy
      cases hx; cases hy
      rw [if_neg hc, if_pos h1]
      exact ⟨rfl, h⟩
    · cases hx

end lists

section istft
variable {α β : ℝ}

theorem comb_overlap {x y x' y' w : List ℝ} {C D : List (List ℝ)} {hop : ℕ} (h : x.length = y.length)
    (hC : List.Forall₂ (fun c d => c.length = d.length) C D)
    (hx : overlapAdd x C w hop = .ok x') (hy : overlapAdd y D w hop = .ok y') :
    overlapAdd (comb α β x y) (List.zipWith (comb α β) C D) w hop = .ok (comb α β x' y') ∧ x'.length = y'.length := by
  unfold overlapAdd at *
  suffices H : ∀ (k : ℕ) (x y : List ℝ), x.length = y.length →
      (C.zipIdx k).foldlM (fun x (c : List ℝ × ℕ) => addSlice x (c.2 * hop) (List.zipWith (· * ·) c.1 w)) x = .ok x' →
      (D.zipIdx k).foldlM (fun x (c : List ℝ × ℕ) => addSlice x (c.2 * hop) (List.zipWith (· * ·) c.1 w)) y = .ok y' →
      ((List.zipWith (comb α β) C D).zipIdx k).foldlM (fun x (c : List ℝ × ℕ) => addSlice x (c.2 * hop)
        (List.zipWith (· * ·) c.1 w)) (comb α β x y) = .ok (comb α β x' y') ∧ x'.length = y'.length from H 0 x y h hx hy
  clear hx hy h x y
  induction hC with
  | nil => intro k x y h hx hy; cases hx; cases hy; exact ⟨rfl, h⟩
  | @cons c d C D hcd hCD ih =>
    intro k x y h hx hy
    simp only [List.zipIdx_cons, List.foldlM_cons, List.zipWith_cons_cons] at hx hy ⊢
    obtain ⟨x1, h1, hx⟩ := bind_ok hx
    obtain ⟨y1, h2, hy⟩ := bind_ok hy
    obtain ⟨h3, h4⟩ := comb_addSlice (α := α) (β := β) _ h (by simp [hcd]) h1 h2
    rw [comb_mul, h3]
    exact ih (k + 1) x1 y1 h4 hx hy

theorem comb_divByNorm {th : ℝ} {x y x' y' wn : List ℝ} (h : x.length = y.length)
    (hx : divByNorm th x wn = .ok x') (hy : divByNorm th y wn = .ok y') :
    divByNorm th (comb α β x y) wn = .ok (comb α β x' y') ∧ x'.length = y'.length := by
  have gen : ∀ (g : ℝ → ℝ → ℝ), (∀ a b c, g (α * a + β * b) c = α * g a c + β * g b c) →
      ∀ (x y wn : List ℝ), List.zipWith g (comb α β x y) wn = comb α β (List.zipWith g x wn) (List.zipWith g y wn) := by
    intro g hg x
    unfold comb
    induction x with
    | nil => intro y wn; simp
    | cons a x ih =>
      intro y wn
      cases y with
      | nil => simp
      | cons b y =>
        cases wn with
        | nil => simp
        | cons c wn => simp only [List.zipWith_cons_cons, ih, hg]
  unfold divByNorm at *
  split at hx
  · cases hx
  · rename_i h0
    rw [if_neg h0] at hy ⊢
    split at hx
    · rename_i h1
      rw [if_pos h1] at hy ⊢
      cases hx; cases hy
      refine ⟨?_, by simp [h]⟩
      rw [gen]
      intro a b c
      split <;> ring
    · rename_i h1
      rw [if_neg h1] at hy ⊢
      cases hx; cases hy
      refine ⟨?_, by simp [h]⟩
      rw [gen]
      intro a b c
      ring

theorem comb_pySlice {x y : List ℝ} (h : x.length = y.length) (a b : Option ℤ) :
    pySlice (comb α β x y) a b = comb α β (pySlice x a b) (pySlice y a b) := by
  unfold pySlice
  simp only [comb_length h, comb_drop, comb_take, h]

/-- **C179** for `istft`: the transforms may be any arrays of one shape. -/
theorem C179_istft (lib : WinLib) (tiny th : ℝ) (rows : ℕ) (S T : List (List ℂ)) (ia : IstftArgs) (α β : ℝ)
    (hST : SameShape S T) (x y : List ℝ) (hx : istft lib tiny th rows S ia = .ok x) (hy : istft lib tiny th rows T ia = .ok y) :
    istft lib tiny th rows (combC α β S T) ia = .ok (comb α β x y) ∧ x.length = y.length := by
  have hlen : T.length = S.length := hST.length_eq.symm
  have hcl : (combC α β S T).length = S.length := by simp [combC, hlen]
  unfold istft at hx hy ⊢
  rw [hlen] at hy
  rw [hcl]
  dsimp only at hx hy ⊢
  obtain ⟨w, hw, hx⟩ := bind_ok hx
  rw [hw, ok_bind] at hy ⊢
  obtain ⟨u, hu, hx⟩ := bind_ok hx
  rw [hu, ok_bind] at hy ⊢
  by_cases hm : orElse ia.nFft ((rows - 1) * 2) = 0
  · simp [hm] at hx
  simp only [hm, if_false, pure_eq_ok] at hx hy ⊢
  obtain ⟨X, h1, hx⟩ := bind_ok hx
  obtain ⟨Y, h2, hy⟩ := bind_ok hy
  obtain ⟨wn, hwn, hx⟩ := bind_ok hx
  rw [hwn, ok_bind] at hy
  obtain ⟨X', h3, hx⟩ := bind_ok hx
  obtain ⟨Y', h4, hy⟩ := bind_ok hy
  have hcols : ∀ m, (combC α β S T).map (irfftL m) = List.zipWith (comb α β) (S.map (irfftL m)) (T.map (irfftL m)) ∧
      List.Forall₂ (fun c d => c.length = d.length) (S.map (irfftL m)) (T.map (irfftL m)) := by
    intro m
    clear * - hST
    unfold SameShape at hST
    unfold combC
    induction hST with
    | nil => simp
    | @cons c d S T hcd hST ih =>
      simp only [List.zipWith_cons_cons, List.map_cons, irfft_comb m hcd, ih.1, true_and]
      exact .cons (by simp [irfftL]) ih.2
  have hshift : ∀ C D : List (List ℝ), List.Forall₂ (fun c d => c.length = d.length) C D →
      (List.zipWith (comb α β) C D).map fftshiftL = List.zipWith (comb α β) (C.map fftshiftL) (D.map fftshiftL) ∧
      List.Forall₂ (fun c d => c.length = d.length) (C.map fftshiftL) (D.map fftshiftL) := by
    intro C D h
    induction h with
    | nil => simp
    | @cons c d C D hcd _ ih =>
      simp only [List.zipWith_cons_cons, List.map_cons, comb_fftshift hcd, ih.1, true_and]
      exact .cons (by simp [fftshiftL, hcd]) ih.2
  generalize orElse ia.nFft ((rows - 1) * 2) = m at *
  have hbuf : (if ia.modulated = true then ((combC α β S T).map (irfftL m)).map fftshiftL else (combC α β S T).map (irfftL m)) =
      List.zipWith (comb α β) (if ia.modulated = true then (S.map (irfftL m)).map fftshiftL else S.map (irfftL m))
        (if ia.modulated = true then (T.map (irfftL m)).map fftshiftL else T.map (irfftL m)) ∧
      List.Forall₂ (fun c d => c.length = d.length)
        (if ia.modulated = true then (S.map (irfftL m)).map fftshiftL else S.map (irfftL m))
        (if ia.modulated = true then (T.map (irfftL m)).map fftshiftL else T.map (irfftL m)) := by
    rw [(hcols m).1]
    split
    · exact hshift _ _ (hcols m).2
    · exact ⟨rfl, (hcols m).2⟩
  unfold unbuffer at h1 h2
  split at h1
  · cases h1
  rename_i hwm
  rw [if_neg hwm] at h2
  have hz : ∀ L : ℕ, comb α β (List.replicate L 0) (List.replicate L 0) = List.replicate L 0 := by
    intro L; simp [comb]
  obtain ⟨h6, h7⟩ := comb_overlap (α := α) (β := β) rfl hbuf.2 h1 h2
  rw [hz, ← hbuf.1] at h6
  obtain ⟨h8, h9⟩ := comb_divByNorm (α := α) (β := β) h7 h3 h4
  have h10 : unbuffer (if ia.modulated = true then ((combC α β S T).map (irfftL m)).map fftshiftL else (combC α β S T).map (irfftL m))
      w ia.hop m (orElse ia.N (ia.hop * S.length)) ia.winExp = .ok (comb α β X Y) := by
    unfold unbuffer
    rw [if_neg hwm]
    exact h6
  simp only [h10, ok_bind, hwn, h8, comb_pySlice h9]
  cases hx; cases hy
  exact ⟨rfl, by unfold pySlice; simp [h9]⟩

end istft

section icwt
variable {α β : ℝ}

theorem comb_zipAdd {x y u v : List ℝ} : List.zipWith (fun a b : ℝ => a + b) (comb α β x y) (comb α β u v) =
    comb α β (List.zipWith (fun a b : ℝ => a + b) x u) (List.zipWith (fun a b : ℝ => a + b) y v) := comb_add

theorem combC_take {S T : List (List ℂ)} (n : ℕ) : (combC α β S T).take n = combC α β (S.take n) (T.take n) := by
  unfold combC; exact List.take_zipWith

theorem combC_drop {S T : List (List ℂ)} (n : ℕ) : (combC α β S T).drop n = combC α β (S.drop n) (T.drop n) := by
  unfold combC; exact List.drop_zipWith

theorem Spec.SameShape.take {S T : List (List ℂ)} (h : SameShape S T) (n : ℕ) : SameShape (S.take n) (T.take n) :=
  List.forall₂_take n h

theorem Spec.SameShape.drop {S T : List (List ℂ)} (h : SameShape S T) (n : ℕ) : SameShape (S.drop n) (T.drop n) :=
  List.forall₂_drop n h

theorem icwt1int_comb (n : ℕ) {S T : List (List ℂ)} (h : SameShape S T) (sc : List ℝ) (st : ScaleType) (l1 : Bool) :
    icwt1int n (combC α β S T) sc st l1 = comb α β (icwt1int n S sc st l1) (icwt1int n T sc st l1) := by
  unfold icwt1int
  apply comb_ext
  · simp
  · simp
  · intro i hi
    have hi' : i < n := by simpa using hi
    have hg : ∀ F : ℕ → ℝ, ((List.range n).map F).getD i 0 = F i := by
      intro F; rw [List.getD_eq_getElem _ _ (by simpa using hi')]; simp
    rw [hg, hg, hg]
    clear hi hi' hg
    unfold SameShape at h
    unfold combC
    induction h generalizing sc with
    | nil => simp
    | @cons c d S T hcd _ ih =>
      cases sc with
      | nil => simp
      | cons s sc =>
        simp only [List.zipWith_cons_cons, List.sum_cons, ih, combC_getD hcd]
        simp
        ring

theorem icwtLeaf_comb {a : IcwtArgs} (n : ℕ) {S T : List (List ℂ)} (h : SameShape S T) (sc : List ℝ) (st : ScaleType) (nv : Nv) (μ ν : ℝ) :
    icwtLeaf { a with xMean := α * μ + β * ν } n (combC α β S T) sc st nv =
      comb α β (icwtLeaf { a with xMean := μ } n S sc st nv) (icwtLeaf { a with xMean := ν } n T sc st nv) := by
  unfold icwtLeaf
  rw [icwt1int_comb n h]
  generalize icwt1int n S sc st a.l1Norm = x
  generalize icwt1int n T sc st a.l1Norm = y
  simp only
  unfold comb
  induction x generalizing y with
  | nil => simp
  | cons p x ih =>
    cases y with
    | nil => simp
    | cons q y => simp only [List.zipWith_cons_cons, List.map_cons, ih]; congr 1; ring

theorem icwtArr_comb {a : IcwtArgs} (n : ℕ) (μ ν : ℝ) (sc : List ℝ) : ∀ {S T : List (List ℂ)} {x y : List ℝ}, SameShape S T →
    icwtArr { a with xMean := μ } n S sc = .ok x → icwtArr { a with xMean := ν } n T sc = .ok y →
    icwtArr { a with xMean := α * μ + β * ν } n (combC α β S T) sc = .ok (comb α β x y) := by
  induction hk : sc.length using Nat.strong_induction_on generalizing sc with
  | _ k ih =>
    intro S T x y h hx hy
    have hlen : T.length = S.length := h.length_eq.symm
    have hcl : (combC α β S T).length = S.length := by simp [combC, hlen]
    rw [icwtArr] at hx hy ⊢
    simp only at hx hy ⊢
    rw [hlen] at hy
    rw [hcl]
    generalize processScales (.arr [sc.length, 1] .f64 sc) (icwtArr.orElseN a.xLen n) (some a.wavelet.sw)
      none true a.downsample = P at hx hy ⊢
    rcases P with e | ⟨_, st, _, nv⟩
    · cases hx
    simp only at hx hy ⊢
    split at hx
    · cases hx
    rename_i hl
    rw [if_neg hl] at hy ⊢
    split at hx
    · rename_i hst
      rw [if_pos hst] at hy ⊢
      generalize logscaleTransitionIdx (thTr .f64) sc = L at hx hy ⊢
      rcases L with e | _ | idx
      · cases hx
      · cases hx
      simp only at hx hy ⊢
      split at hx
      · rename_i hb
        rw [dif_pos hb] at hy ⊢
        rw [combC_take, combC_drop]
        split at hx
        · rename_i x1 x2 e1 e2
          split at hy
          · rename_i y1 y2 f1 f2
            rw [ih _ (by simp; omega) (sc.take idx) rfl (h.take idx) e1 f1,
              ih _ (by simp; omega) (sc.drop idx) rfl (h.drop idx) e2 f2]
            cases hx; cases hy
            simp only [comb_zipAdd]
          · cases hy
          · cases hy
        · cases hx
        · cases hx
      · cases hx
    · rename_i hst
      rw [if_neg hst] at hy ⊢
      cases hx; cases hy
      rw [icwtLeaf_comb n h]

/-- **C179** for `icwt` (one integral): linear in the transform and `x_mean` together, for every kind of scales. -/
theorem C179_icwt (n : ℕ) (S T : List (List ℂ)) (scales : ScalesArg) (a : IcwtArgs) (α β μ ν : ℝ) (hST : SameShape S T)
    (x y : List ℝ) (hx : icwt n S scales { a with xMean := μ } = .ok x) (hy : icwt n T scales { a with xMean := ν } = .ok y) :
    icwt n (combC α β S T) scales { a with xMean := α * μ + β * ν } = .ok (comb α β x y) := by
  have top : ∀ r, icwt.icwtTop { a with xMean := μ } n S r = .ok x → icwt.icwtTop { a with xMean := ν } n T r = .ok y →
      icwt.icwtTop { a with xMean := α * μ + β * ν } n (combC α β S T) r = .ok (comb α β x y) := by
    intro r hx hy
    have hlen : T.length = S.length := hST.length_eq.symm
    have hcl : (combC α β S T).length = S.length := by simp [combC, hlen]
    unfold icwt.icwtTop at hx hy ⊢
    rw [hlen] at hy
    rw [hcl]
    split at hx
    · cases hx
    rename_i hl
    rw [if_neg hl] at hy ⊢
    split at hx
    · rename_i hst
      rw [if_pos hst] at hy ⊢
      obtain ⟨o, ho, hx⟩ := bind_ok hx
      rw [ho, ok_bind] at hy ⊢
      cases o with
      | none =>
        simp only at hx hy ⊢
        obtain ⟨x1, e1, hx⟩ := bind_ok hx
        obtain ⟨x2, e2, hx⟩ := bind_ok hx
        obtain ⟨y1, f1, hy⟩ := bind_ok hy
        obtain ⟨y2, f2, hy⟩ := bind_ok hy
        rw [icwtArr_comb n μ ν r.1 hST e1 f1]
        rw [e1] at e2; rw [f1] at f2
        cases e2; cases f2
        cases hx; cases hy
        simp only [ok_bind, comb_zipAdd]
      | some idx =>
        simp only at hx hy ⊢
        obtain ⟨x1, e1, hx⟩ := bind_ok hx
        obtain ⟨x2, e2, hx⟩ := bind_ok hx
        obtain ⟨y1, f1, hy⟩ := bind_ok hy
        obtain ⟨y2, f2, hy⟩ := bind_ok hy
        rw [combC_take, combC_drop, icwtArr_comb n μ ν _ (hST.take idx) e1 f1, icwtArr_comb n μ ν _ (hST.drop idx) e2 f2]
        cases hx; cases hy
        simp only [ok_bind, comb_zipAdd]
    · rename_i hst
      rw [if_neg hst] at hy ⊢
      cases hx; cases hy
      rw [icwtLeaf_comb n hST]
  unfold icwt at hx hy ⊢
  simp only at hx hy ⊢
  obtain ⟨u, hu, hx⟩ := bind_ok hx
  rw [hu, ok_bind] at hy ⊢
  cases scales with
  | arr s d v =>
    simp only at hx hy ⊢
    obtain ⟨r, hr, hx⟩ := bind_ok hx
    rw [hr, ok_bind] at hy ⊢
    exact top r hx hy
  | _ =>
    simp only at hx hy ⊢
    obtain ⟨r, hr, hx⟩ := bind_ok hx
    rw [hr, ok_bind] at hy ⊢
    exact top r hx hy

end icwt

section issq
variable {α β : ℝ}

theorem realColSum_comb (M N : ℕ) (A B : ℕ → ℕ → ℂ) :
    realColSum M N (fun r m => (α : ℂ) * A r m + (β : ℂ) * B r m) = comb α β (realColSum M N A) (realColSum M N B) := by
  unfold realColSum
  apply comb_ext
  · simp
  · simp
  · intro i hi
    have hi' : i < N := by simpa using hi
    have hg : ∀ F : ℕ → ℝ, ((List.range N).map F).getD i 0 = F i := by
      intro F; rw [List.getD_eq_getElem _ _ (by simpa using hi')]; simp
    rw [hg, hg, hg, mul_sum, mul_sum, ← sum_add_distrib]
    exact sum_congr rfl fun r _ => by simp

theorem maskLoop_comb (M N : ℕ) (A B : ℕ → ℕ → ℂ) (cc cw : Curves) (K : ℕ) :
    maskLoop M N (fun r m => (α : ℂ) * A r m + (β : ℂ) * B r m) cc cw K =
      (List.zipWith (comb α β) (maskLoop M N A cc cw K).1 (maskLoop M N B cc cw K).1,
        fun r m => (α : ℂ) * (maskLoop M N A cc cw K).2 r m + (β : ℂ) * (maskLoop M N B cc cw K).2 r m) ∧
    (maskLoop M N A cc cw K).1.length = (maskLoop M N B cc cw K).1.length := by
  induction K with
  | zero => simp [maskLoop]
  | succ K ih =>
    have step : ∀ A, maskLoop M N A cc cw (K + 1) =
        ((maskLoop M N A cc cw K).1 ++ [realColSum M N (maskStep M A (maskLoop M N A cc cw K).2 cc cw K).1],
          (maskStep M A (maskLoop M N A cc cw K).2 cc cw K).2) := by
      intro A
      unfold maskLoop
      rw [List.range_succ, List.foldl_append]
      rfl
    rw [step, step, step, ih.1]
    have e1 : (maskStep M (fun r m => (α : ℂ) * A r m + (β : ℂ) * B r m)
        (fun r m => (α : ℂ) * (maskLoop M N A cc cw K).2 r m + (β : ℂ) * (maskLoop M N B cc cw K).2 r m) cc cw K) =
        (fun r m => (α : ℂ) * (maskStep M A (maskLoop M N A cc cw K).2 cc cw K).1 r m +
            (β : ℂ) * (maskStep M B (maskLoop M N B cc cw K).2 cc cw K).1 r m,
          fun r m => (α : ℂ) * (maskStep M A (maskLoop M N A cc cw K).2 cc cw K).2 r m +
            (β : ℂ) * (maskStep M B (maskLoop M N B cc cw K).2 cc cw K).2 r m) := by
      unfold maskStep
      simp only [Prod.mk.injEq]
      constructor <;> (funext r m; split <;> simp)
    rw [e1]
    refine ⟨?_, by simp [ih.2]⟩
    simp only [Prod.mk.injEq, and_true]
    rw [realColSum_comb, List.zipWith_append ih.2]
    rfl

theorem invertTx_comb (M N : ℕ) (A B : ℕ → ℕ → ℂ) (c : Option (Curves × Curves)) (x y : Inverse)
    (hx : invertTx M N A c = .ok x) (hy : invertTx M N B c = .ok y) (s : ℝ) :
    ∃ z, invertTx M N (fun r m => (α : ℂ) * A r m + (β : ℂ) * B r m) c = .ok z ∧ z.scale s = combI α β (x.scale s) (y.scale s) := by
  have hs : ∀ x y : List ℝ, (comb α β x y).map (· * s) = comb α β (x.map (· * s)) (y.map (· * s)) := by
    intro x y
    unfold comb
    induction x generalizing y with
    | nil => simp
    | cons p x ih =>
      cases y with
      | nil => simp
      | cons q y => simp only [List.zipWith_cons_cons, List.map_cons, ih]; congr 1; ring
  cases c with
  | none =>
    cases hx; cases hy
    refine ⟨_, rfl, ?_⟩
    simp only [Inverse.scale, combI, realColSum_comb, hs]
  | some c =>
    obtain ⟨cc, cw⟩ := c
    unfold invertTx at hx hy ⊢
    simp only at hx hy ⊢
    obtain ⟨xs, h1, hx⟩ := bind_ok hx
    obtain ⟨ys, h2, hy⟩ := bind_ok hy
    cases hx; cases hy
    unfold invertComponents at h1 h2 ⊢
    split at h1
    · cases h1
    rename_i c1
    rw [if_neg c1] at h2 ⊢
    split at h1
    · cases h1
    rename_i c2
    rw [if_neg c2] at h2 ⊢
    split at h1
    · cases h1
    rename_i c3
    rw [if_neg c3] at h2 ⊢
    cases h1; cases h2
    refine ⟨_, rfl, ?_⟩
    simp only [Inverse.scale, combI, (maskLoop_comb M N A B cc cw cc.cols).1, realColSum_comb]
    congr 1
    have hl := (maskLoop_comb (α := α) (β := β) M N A B cc cw cc.cols).2
    generalize (maskLoop M N A cc cw cc.cols).1 = xs at *
    generalize (maskLoop M N B cc cw cc.cols).1 = ys at *
    rw [List.map_append, List.map_append, List.map_append, List.zipWith_append (by simpa using hl)]
    congr 1
    · rw [List.map_zipWith, List.zipWith_map]
      simp only [hs]
    · simp [hs]

/-- **C179** for `issq_cwt`, whole or by components. -/
theorem C179_issq_cwt (M N : ℕ) (A B : ℕ → ℕ → ℂ) (css : ℝ) (cc cw : Option CurveArg) (α β : ℝ) (x y : Inverse)
    (hx : issqCwt M N A css cc cw = .ok x) (hy : issqCwt M N B css cc cw = .ok y) :
    issqCwt M N (fun r m => (α : ℂ) * A r m + (β : ℂ) * B r m) css cc cw = .ok (combI α β x y) := by
  unfold issqCwt at hx hy ⊢
  obtain ⟨c, hc, hx⟩ := bind_ok hx
  rw [hc, ok_bind] at hy ⊢
  obtain ⟨u, hu, hx⟩ := bind_ok hx
  obtain ⟨v, hv, hy⟩ := bind_ok hy
  obtain ⟨z, hz, hzs⟩ := invertTx_comb (α := α) (β := β) M N A B c u v hu hv (2 / css)
  rw [hz, ok_bind, hzs]
  cases hx; cases hy
  rfl

/-- **C179** for `issq_stft`, whole or by components. -/
theorem C179_issq_stft (lib : WinLib) (tiny : ℝ) (M N : ℕ) (A B : ℕ → ℕ → ℂ) (a : IssqStftArgs) (α β : ℝ) (x y : Inverse)
    (hx : issqStft lib tiny M N A a = .ok x) (hy : issqStft lib tiny M N B a = .ok y) :
    issqStft lib tiny M N (fun r m => (α : ℂ) * A r m + (β : ℂ) * B r m) a = .ok (combI α β x y) := by
  unfold issqStft at hx hy ⊢
  obtain ⟨c, hc, hx⟩ := bind_ok hx
  rw [hc, ok_bind] at hy ⊢
  obtain ⟨u, hu, hx⟩ := bind_ok hx
  obtain ⟨v, hv, hy⟩ := bind_ok hy
  obtain ⟨z, hz, hzs⟩ := invertTx_comb (α := α) (β := β) M N A B c.1 u v hu hv (2 / c.2.getD (c.2.length / 2) 0)
  rw [hz, ok_bind, hzs]
  cases hx; cases hy
  rfl

end issq

/-- Twice a transform minus itself. -/
example : ∃ S dS, stft onesLib 0 [1, 2, 3, 4] exArgs = .ok (3, S, dS) ∧
    istft onesLib 0 (1/2) 2 (combC 2 (-1) S S) { window := .arr [1, 2, 1], nFft := some 3, N := some 4 } =
      .ok (comb 2 (-1) [1, 2, 3, 4] [1, 2, 3, 4]) := by
  have hex : ∃ S dS, stft onesLib 0 [1, 2, 3, 4] exArgs = .ok (3, S, dS) ∧
      istft onesLib 0 (1/2) 2 S { window := .arr [1, 2, 1], nFft := some 3, N := some 4 } = .ok [1, 2, 3, 4] := by
    refine C08_positive_window exValid (by norm_num) (1/2) (by norm_num) _ rfl rfl rfl rfl ?_
      (by simp [exArgs]) ?_
    · unfold getWindow getWindowRaw
      simp [orElse, zeroDenormals]
    · intro r hr
      interval_cases r <;> norm_num
  obtain ⟨S, dS, h1, h2⟩ := hex
  exact ⟨S, dS, h1, (C179_istft _ _ _ _ S S _ 2 (-1) (List.forall₂_same.2 fun _ _ => rfl) _ _ h2 h2).1⟩

/-- Different transforms on six piecewise scales, with different means. -/
example : ∃ x y, icwt 2 [[1, 2], [3, 4], [5, Complex.I], [1, 2], [3, 4], [5, Complex.I]] (.arr [6] .f64 v6) (exIcwt 1) = .ok x ∧
    icwt 2 [[0, 2], [3, 0], [0, 1], [1, 0], [3, 4], [5, 6]] (.arr [6] .f64 v6) (exIcwt 0) = .ok y ∧
    icwt 2 (combC 3 7 [[1, 2], [3, 4], [5, Complex.I], [1, 2], [3, 4], [5, Complex.I]] [[0, 2], [3, 0], [0, 1], [1, 0], [3, 4], [5, 6]])
      (.arr [6] .f64 v6) (exIcwt (3 * 1 + 7 * 0)) = .ok (comb 3 7 x y) := by
  obtain ⟨x, hx⟩ := exIcwt_ok 2 [[1, 2], [3, 4], [5, Complex.I], [1, 2], [3, 4], [5, Complex.I]] rfl 1
  obtain ⟨y, hy⟩ := exIcwt_ok 2 [[0, 2], [3, 0], [0, 1], [1, 0], [3, 4], [5, 6]] rfl 0
  refine ⟨x, y, hx, hy, C179_icwt 2 _ _ _ (exIcwt 0) 3 7 1 0 ?_ x y hx hy⟩
  simp [SameShape]

/-- Two components and the remainder. -/
example : ∃ x y, issqCwt 3 2 (fun r m => r + m) 1 (some (.twoD 2 2 fun _ n => 2 * (n : ℤ))) (some (.twoD 2 2 fun _ _ => 0)) = .ok (.comps x) ∧
    issqCwt 3 2 (fun r _ => r) 1 (some (.twoD 2 2 fun _ n => 2 * (n : ℤ))) (some (.twoD 2 2 fun _ _ => 0)) = .ok (.comps y) ∧
    issqCwt 3 2 (fun r m => ((3 : ℝ) : ℂ) * (r + m) + ((7 : ℝ) : ℂ) * r) 1 (some (.twoD 2 2 fun _ n => 2 * (n : ℤ)))
      (some (.twoD 2 2 fun _ _ => 0)) = .ok (.comps (List.zipWith (comb 3 7) x y)) := by
  have ok : ∀ T : ℕ → ℕ → ℂ, ∃ r, issqCwt 3 2 T 1 (some (.twoD 2 2 fun _ n => 2 * (n : ℤ))) (some (.twoD 2 2 fun _ _ => 0)) =
      .ok (.comps r) := fun T => ⟨_, rfl⟩
  obtain ⟨x, hx⟩ := ok fun r m => r + m
  obtain ⟨y, hy⟩ := ok fun r _ => r
  exact ⟨x, y, hx, hy, C179_issq_cwt 3 2 _ _ 1 _ _ 3 7 _ _ hx hy⟩

example : ∃ x y, issqStft onesLib 0 3 2 (fun _ _ => 1) { window := .arr [1, 2, 1], nFft := some 3 } = .ok x ∧
    issqStft onesLib 0 3 2 (fun r _ => r) { window := .arr [1, 2, 1], nFft := some 3 } = .ok y ∧
    issqStft onesLib 0 3 2 (fun r _ => ((3 : ℝ) : ℂ) * 1 + ((7 : ℝ) : ℂ) * r) { window := .arr [1, 2, 1], nFft := some 3 } =
      .ok (combI 3 7 x y) := by
  have ok : ∀ T : ℕ → ℕ → ℂ, ∃ r, issqStft onesLib 0 3 2 T { window := .arr [1, 2, 1], nFft := some 3 } = .ok r := fun T =>
    C15_accepts _ _ _ _ _ _ rfl rfl trivial [1, 2, 1]
      (by simp [getWindow, getWindowRaw, orElse, zeroDenormals]) (by simp)
  obtain ⟨x, hx⟩ := ok fun _ _ => 1
  obtain ⟨y, hy⟩ := ok fun r _ => r
  exact ⟨x, y, hx, hy, C179_issq_stft _ _ _ _ _ _ _ 3 7 x y hx hy⟩

end Ssq
