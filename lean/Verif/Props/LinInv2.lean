import Verif.Props.LinInv
import Verif.Props.Icwt2

/-!
# C179 for the two-integral inverse
-/
namespace Ssq
open Finset Spec

variable {α β : ℝ}

/-- `α c + β d` of complex rows. -/
noncomputable def combRow (α β : ℝ) (c d : List ℂ) : List ℂ := List.zipWith (fun u v : ℂ => (α : ℂ) * u + (β : ℂ) * v) c d

theorem pyFrom_map {γ δ : Type} (g : γ → δ) (x : List γ) (n : ℤ) : pyFrom (x.map g) n = (pyFrom x n).map g := by
  unfold pyFrom pySlice
  simp

theorem pyUpto_map {γ δ : Type} (g : γ → δ) (x : List γ) (n : ℤ) : pyUpto (x.map g) n = (pyUpto x n).map g := by
  unfold pyUpto pySlice
  simp

/-- Padding commutes with functions of the samples that keep zero. -/
theorem padNumpy_natural {γ δ : Type} [Zero γ] [Zero δ] (g : γ → δ) (hg : g 0 = 0) (t : PadType) (x : List γ) (n1 n2 : ℤ) :
    padNumpy t (x.map g) n1 n2 = (padNumpy t x n1 n2).map (List.map g) := by
  have hidx : ∀ idx : (N : ℕ) → 0 < N → ℤ → Fin N, npPadIdx idx (x.map g) n1 n2 = (npPadIdx idx x n1 n2).map (List.map g) := by
    intro idx
    unfold npPadIdx
    by_cases h : n1 < 0 ∨ n2 < 0
    · rw [if_pos h, if_pos h]; rfl
    rw [if_neg h, if_neg h]
    by_cases hx : 0 < x.length
    · rw [dif_pos (by simpa using hx), dif_pos hx]
      have hi : ∀ (M : ℕ) (hM : 0 < M) (e : M = x.length) (j : ℤ), (idx M hM j : ℕ) = idx x.length hx j := by
        intro M hM e j
        subst e
        rfl
      simp only [Except.map, List.length_map, List.map_map]
      congr 1
      refine List.map_congr_left fun j _ => ?_
      simp [hi _ _ (List.length_map (as := x) g)]
    · rw [dif_neg (by simpa using hx), dif_neg hx]
      split <;> rfl
  cases t with
  | zero =>
    unfold padNumpy npPadZero
    simp only
    split
    · rfl
    · simp [Except.map, hg]
  | reflect => exact hidx _
  | replicate => exact hidx _
  | wrap => exact hidx _
  | symmetric =>
    unfold padNumpy padSymmetric
    simp [Except.map, ← List.map_reverse, pyFrom_map, pyUpto_map]

theorem padNumpy_comb {c d : List ℂ} (h : c.length = d.length) (t : PadType) (n1 n2 : ℤ) {cp dp : List ℂ}
    (hc : padNumpy t c n1 n2 = .ok cp) (hd : padNumpy t d n1 n2 = .ok dp) :
    padNumpy t (combRow α β c d) n1 n2 = .ok (combRow α β cp dp) ∧ cp.length = dp.length := by
  have e1 : c = (c.zip d).map Prod.fst := (List.map_fst_zip h.le).symm
  have e2 : d = (c.zip d).map Prod.snd := (List.map_snd_zip h.ge).symm
  have e3 : combRow α β c d = (c.zip d).map fun p => (α : ℂ) * p.1 + (β : ℂ) * p.2 := by
    unfold combRow; rw [← List.map_uncurry_zip_eq_zipWith]; rfl
  have hc : (padNumpy t (c.zip d) n1 n2).map (List.map Prod.fst) = .ok cp := by
    rw [← padNumpy_natural _ rfl, ← e1, hc]
  have hd : (padNumpy t (c.zip d) n1 n2).map (List.map Prod.snd) = .ok dp := by
    rw [← padNumpy_natural _ rfl, ← e2, hd]
  clear e1 e2
  rw [e3, padNumpy_natural _ (by simp)]
  generalize padNumpy t (c.zip d) n1 n2 = z at *
  rcases z with e | z
  · cases hc
  · cases hc; cases hd
    refine ⟨?_, by simp⟩
    simp only [Except.map, combRow]
    congr 1
    rw [List.zipWith_map]
    induction z with
    | nil => rfl
    | cons a z ih => simp

theorem pad2_comb {S T : List (List ℂ)} (h : SameShape S T) (n : ℕ) (t : PadType) {r q : List (List ℂ)} {w : ℤ × ℤ × ℤ}
    (hS : padsignal2 true n S (padName t) none = .ok (r, w)) (hT : padsignal2 true n T (padName t) none = .ok (q, w)) :
    padsignal2 true n (combC α β S T) (padName t) none = .ok (combC α β r q, w) := by
  unfold padsignal2 at *
  rw [parse_padName, ok_bind] at *
  generalize padWidths n none = w' at *
  obtain ⟨w0, n1, n2⟩ := w'
  obtain ⟨xs, hxs, hS⟩ := bind_ok hS
  obtain ⟨ys, hys, hT⟩ := bind_ok hT
  cases hS; cases hT
  simp only [if_true] at hxs hys ⊢
  have key : List.mapM (fun x => padNumpy t x n1 n2) (combC α β S T) = .ok (combC α β r q) := by
    unfold SameShape at *
    clear hT hS
    induction h generalizing r q with
    | nil => cases hxs; cases hys; rfl
    | @cons c d S T hcd _ ih =>
      rw [List.mapM_cons] at hxs hys
      obtain ⟨c', hc', hxs⟩ := bind_ok hxs
      obtain ⟨S', hS', hxs⟩ := bind_ok hxs
      obtain ⟨d', hd', hys⟩ := bind_ok hys
      obtain ⟨T', hT', hys⟩ := bind_ok hys
      cases hxs; cases hys
      have k1 := ih hS' hT'
      obtain ⟨m1, m2⟩ := padNumpy_comb (α := α) (β := β) hcd t n1 n2 hc' hd'
      unfold combC at *
      rw [List.zipWith_cons_cons, List.mapM_cons]
      unfold combRow at m1
      rw [m1, k1]
      rfl
  rw [key]
  rfl

theorem parse_name {p : String} {t : PadType} (h : parsePadType true p = .ok t) : p = padName t := by
  unfold parsePadType at h
  rw [if_pos rfl] at h
  split at h <;> first | (cases h; rfl) | cases h

theorem icwt2Row_comb (f : WFn) (st : ScaleType) (l1 : Bool) (L : ℕ) (he : L % 2 = 0) (s : ℝ) {c d : List ℂ} (hc : c.length = L) (hd : d.length = L) :
    icwt2Row f st l1 L s (combRow α β c d) = comb α β (icwt2Row f st l1 L s c) (icwt2Row f st l1 L s d) := by
  have hl : (combRow α β c d).length = L := by simp [combRow, hc, hd]
  rw [icwt2Row_eq f st l1 L he s _ hl, icwt2Row_eq f st l1 L he s _ hc, icwt2Row_eq f st l1 L he s _ hd]
  unfold comb
  rw [List.zipWith_map, List.zipWith_self]
  refine List.map_congr_left fun j _ => ?_
  have hdft : ∀ k, dft L (fun q => (combRow α β c d).getD q 0) k = α * dft L (fun q => c.getD q 0) k + β * dft L (fun q => d.getD q 0) k := by
    intro k
    unfold dft
    rw [Finset.mul_sum, Finset.mul_sum, ← Finset.sum_add_distrib]
    refine Finset.sum_congr rfl fun q _ => ?_
    have := combC_getD (α := α) (β := β) (c := c) (d := d) (by omega) q
    unfold combRow
    simp only [this]
    ring
  have hid : idft L (fun k => (psihFull f L s).getD k 0 * dft L (fun q => (combRow α β c d).getD q 0) k) j =
      α * idft L (fun k => (psihFull f L s).getD k 0 * dft L (fun q => c.getD q 0) k) j +
        β * idft L (fun k => (psihFull f L s).getD k 0 * dft L (fun q => d.getD q 0) k) j := by
    unfold idft
    rw [← mul_div_assoc, ← mul_div_assoc, ← add_div, Finset.mul_sum, Finset.mul_sum, ← Finset.sum_add_distrib]
    congr 1
    refine Finset.sum_congr rfl fun k _ => ?_
    simp only [hdft]
    ring
  rw [hid]
  simp only [Complex.add_re, Complex.re_ofReal_mul]
  ring

theorem foldl_comb {R Q : List (List ℝ)} (h : R.length = Q.length) (u v : List ℝ) :
    (List.zipWith (comb α β) R Q).foldl (fun acc row => List.zipWith (fun u v : ℝ => u + v) acc row) (comb α β u v) =
      comb α β (R.foldl (fun acc row => List.zipWith (fun u v : ℝ => u + v) acc row) u)
        (Q.foldl (fun acc row => List.zipWith (fun u v : ℝ => u + v) acc row) v) := by
  induction R generalizing Q u v with
  | nil => cases Q with
    | nil => simp
    | cons => simp at h
  | cons c R ih =>
    cases Q with
    | nil => simp at h
    | cons d Q =>
      simp only [List.zipWith_cons_cons, List.foldl_cons]
      rw [comb_zipAdd]
      exact ih (by simpa using h) _ _

theorem foldl_len (L : ℕ) (R : List (List ℝ)) (h : ∀ w ∈ R, w.length = L) (u : List ℝ) (hu : u.length = L) :
    (R.foldl (fun acc row => List.zipWith (fun u v : ℝ => u + v) acc row) u).length = L := by
  induction R generalizing u with
  | nil => simpa
  | cons c R ih =>
    simp only [List.foldl_cons]
    refine ih (fun w hw => h w (List.mem_cons_of_mem _ hw)) _ ?_
    simp [hu, h c (List.mem_cons_self)]

/-- The rows of `S` and `T`, as many and of `n` samples each. -/
structure Mats (n : ℕ) (S T : List (List ℂ)) : Prop where
  len : S.length = T.length
  left : ∀ w ∈ S, w.length = n
  right : ∀ w ∈ T, w.length = n

theorem Mats.same {n : ℕ} {S T : List (List ℂ)} (h : Mats n S T) : SameShape S T :=
  List.forall₂_iff_get.2 ⟨h.len, fun i h1 h2 => by
    rw [h.left _ (List.get_mem ..), h.right _ (List.get_mem ..)]⟩

theorem Mats.take {n : ℕ} {S T : List (List ℂ)} (h : Mats n S T) (k : ℕ) : Mats n (S.take k) (T.take k) :=
  ⟨by simp [h.len], fun w hw => h.left w (List.mem_of_mem_take hw), fun w hw => h.right w (List.mem_of_mem_take hw)⟩

theorem Mats.drop {n : ℕ} {S T : List (List ℂ)} (h : Mats n S T) (k : ℕ) : Mats n (S.drop k) (T.drop k) :=
  ⟨by simp [h.len], fun w hw => h.left w (List.mem_of_mem_drop hw), fun w hw => h.right w (List.mem_of_mem_drop hw)⟩

theorem rows_comb (f : WFn) (st : ScaleType) (l1 : Bool) (L : ℕ) (he : L % 2 = 0) (sc : List ℝ) {S T : List (List ℂ)} (h : Mats L S T) :
    List.zipWith (icwt2Row f st l1 L) sc (combC α β S T) =
      List.zipWith (comb α β) (List.zipWith (icwt2Row f st l1 L) sc S) (List.zipWith (icwt2Row f st l1 L) sc T) := by
  obtain ⟨hl, h1, h2⟩ := h
  induction sc generalizing S T with
  | nil => simp
  | cons s sc ih =>
    cases S with
    | nil => simp [combC]
    | cons c S =>
      cases T with
      | nil => simp at hl
      | cons d T =>
        have e := icwt2Row_comb (α := α) (β := β) f st l1 L he s (h1 c List.mem_cons_self) (h2 d List.mem_cons_self)
        have i := ih (S := S) (T := T) (by simpa using hl) (fun w hw => h1 w (List.mem_cons_of_mem _ hw)) (fun w hw => h2 w (List.mem_cons_of_mem _ hw))
        unfold combC at i ⊢
        unfold combRow at e
        simp only [List.zipWith_cons_cons, e, i]

theorem icwt2int_comb {a : Icwt2Args} (μ ν κ : ℝ) (n : ℕ) (hn : 0 < n) {S T : List (List ℂ)} (h : Mats n S T) (sc : List ℝ) (st : ScaleType) {x y : List ℝ}
    (hx : icwt2int { a with xMean := μ } n S sc st = .ok x) (hy : icwt2int { a with xMean := ν } n T sc st = .ok y) :
    icwt2int { a with xMean := κ } n (combC α β S T) sc st = .ok (comb α β x y) := by
  unfold icwt2int at *
  simp only at hx hy ⊢
  split at hx
  · cases hx
  rename_i hr
  rw [if_neg hr] at hy ⊢
  generalize a.padtype = p at *
  cases p with
  | none => cases hx
  | some p =>
    simp only at hx hy ⊢
    have hp : ∃ t, p = padName t := by
      obtain ⟨r, hr, -⟩ := bind_ok hx
      unfold padsignal2 at hr
      obtain ⟨t, ht, -⟩ := bind_ok hr
      exact ⟨t, parse_name ht⟩
    obtain ⟨t, rfl⟩ := hp
    obtain ⟨wp, n1, e1, e2, e3, e4, e5⟩ := padsignal2_rows t n hn S h.left
    obtain ⟨vp, m1, f1, f2, f3, f4, f5⟩ := padsignal2_rows t n hn T h.right
    obtain rfl : n1 = m1 := by exact_mod_cast e1.trans f1.symm
    rw [e4, ok_bind] at hx
    rw [f4, ok_bind] at hy
    rw [pad2_comb h.same n t e4 f4, ok_bind]
    have hM : Mats (p2up n).1 wp vp := by
      refine ⟨by rw [← e5.length_eq, ← f5.length_eq, h.len], ?_, ?_⟩
      · intro w hw
        obtain ⟨i, hi, rfl⟩ := List.mem_iff_getElem.1 hw
        exact ((List.forall₂_iff_get.1 e5).2 i (by rw [e5.length_eq]; exact hi) hi).1
      · intro w hw
        obtain ⟨i, hi, rfl⟩ := List.mem_iff_getElem.1 hw
        exact ((List.forall₂_iff_get.1 f5).2 i (by rw [f5.length_eq]; exact hi) hi).1
    cases hx; cases hy
    simp only [Int.toNat_natCast]
    generalize (p2up n).1 = L at *
    rw [rows_comb _ _ _ L e3 sc hM]
    have h0 : List.replicate L (0 : ℝ) = comb α β (List.replicate L 0) (List.replicate L 0) := by simp [comb]
    have hrl : ∀ (c : List (List ℂ)), (∀ w ∈ c, w.length = L) → ∀ w ∈ List.zipWith (icwt2Row a.wavelet.fn st a.l1Norm L) sc c, w.length = L := by
      intro c hc w hw
      obtain ⟨i, hi, rfl⟩ := List.mem_iff_getElem.1 hw
      rw [List.getElem_zipWith, icwt2Row_eq _ _ _ _ e3 _ _ (hc _ (List.getElem_mem _))]
      simp
    conv_lhs => rw [h0]
    rw [foldl_comb (by simp [hM.len])]
    unfold unpad
    rw [comb_pySlice (by rw [foldl_len L _ (hrl _ hM.left) _ (by simp), foldl_len L _ (hrl _ hM.right) _ (by simp)])]

theorem icwt2Leaf_comb {a : Icwt2Args} (n : ℕ) (hn : 0 < n) {S T : List (List ℂ)} (h : Mats n S T) (sc : List ℝ) (st : ScaleType) (nv : Nv) (μ ν : ℝ)
    {x y : List ℝ} (hx : icwt2Leaf { a with xMean := μ } n S sc st nv = .ok x) (hy : icwt2Leaf { a with xMean := ν } n T sc st nv = .ok y) :
    icwt2Leaf { a with xMean := α * μ + β * ν } n (combC α β S T) sc st nv = .ok (comb α β x y) := by
  unfold icwt2Leaf at *
  obtain ⟨u, hu, hx'⟩ := bind_ok hx
  obtain ⟨v, hv, hy'⟩ := bind_ok hy
  clear hx hy
  rw [icwt2int_comb _ _ _ n hn h sc st hu hv, ok_bind]
  cases hx'; cases hy'
  simp only
  congr 1
  clear hu hv
  unfold comb
  induction u generalizing v with
  | nil => simp
  | cons p x ih =>
    cases v with
    | nil => simp
    | cons q y => simp only [List.zipWith_cons_cons, List.map_cons, ih]; congr 1; ring

theorem icwt2Top_comb {a : Icwt2Args} (n : ℕ) (hn : 0 < n) {S T : List (List ℂ)} (h : Mats n S T) (r : List ℝ × ScaleType × ℕ × Nv) (μ ν : ℝ)
    {x y : List ℝ} (hx : icwt2Top { a with xMean := μ } n S r = .ok x) (hy : icwt2Top { a with xMean := ν } n T r = .ok y) :
    icwt2Top { a with xMean := α * μ + β * ν } n (combC α β S T) r = .ok (comb α β x y) := by
  have hcl : (combC α β S T).length = S.length := by simp [combC, h.len]
  unfold icwt2Top at *
  rw [← h.len] at hy
  rw [hcl]
  split at hx
  · cases hx
  rename_i hl
  rw [if_neg hl] at hy ⊢
  exact icwt2Leaf_comb n hn h _ _ _ μ ν hx hy

theorem icwt2Arr_comb {a : Icwt2Args} (n : ℕ) (hn : 0 < n) (μ ν : ℝ) (sc : List ℝ) : ∀ {S T : List (List ℂ)} {x y : List ℝ}, Mats n S T →
    icwt2Arr { a with xMean := μ } n S sc = .ok x → icwt2Arr { a with xMean := ν } n T sc = .ok y →
    icwt2Arr { a with xMean := α * μ + β * ν } n (combC α β S T) sc = .ok (comb α β x y) := by
  induction hk : sc.length using Nat.strong_induction_on generalizing sc with
  | _ k ih =>
    intro S T x y h hx hy
    have hlen : T.length = S.length := h.len.symm
    have hcl : (combC α β S T).length = S.length := by simp [combC, hlen]
    rw [icwt2Arr] at hx hy ⊢
    simp only at hx hy ⊢
    rw [hlen] at hy
    rw [hcl]
    generalize processScales (.arr [sc.length, 1] .f64 sc) (icwtArr.orElseN a.xLen n) (some a.wavelet.sw)
      none true a.downsample = P at hx hy ⊢
    rcases P with e | r
    · cases hx
    simp only at hx hy ⊢
    split at hx
    · rename_i hst
      rw [if_pos hst] at hy ⊢
      split at hx
      · cases hx
      rename_i hl
      rw [if_neg hl] at hy ⊢
      generalize logscaleTransitionIdx (thTr .f64) sc = L at hx hy ⊢
      rcases L with e | _ | idx
      · cases hx
      · cases hx
      simp only at hx hy ⊢
      split at hx
      · rename_i hb
        rw [dif_pos hb] at hy ⊢
        rw [combC_take, combC_drop]
        split at hx
        · rename_i x1 x2 e1 e2
          split at hy
          · rename_i y1 y2 f1 f2
            rw [ih _ (by simp; omega) (sc.take idx) rfl (h.take idx) e1 f1,
              ih _ (by simp; omega) (sc.drop idx) rfl (h.drop idx) e2 f2]
            cases hx; cases hy
            simp only [comb_zipAdd]
          · cases hy
          · cases hy
        · cases hx
        · cases hx
      · cases hx
    · rename_i hst
      rw [if_neg hst] at hy ⊢
      exact icwt2Top_comb n hn h r μ ν hx hy

/-- **C179** for `icwt(…, one_int=False)`: whenever the inverses of `S` and of `T` return, that of `α S + β T` returns `α x + β y`, whatever the wavelet, the padding,
the norm and the scales. -/
theorem C179_icwt2 (n : ℕ) (hn : 0 < n) (S T : List (List ℂ)) (hl : S.length = T.length) (hS : ∀ w ∈ S, w.length = n) (hT : ∀ w ∈ T, w.length = n)
    (scales : ScalesArg) (a : Icwt2Args) (α β μ ν : ℝ) (x y : List ℝ)
    (hx : icwt2 n S scales { a with xMean := μ } = .ok x) (hy : icwt2 n T scales { a with xMean := ν } = .ok y) :
    icwt2 n (combC α β S T) scales { a with xMean := α * μ + β * ν } = .ok (comb α β x y) := by
  have h : Mats n S T := ⟨hl, hS, hT⟩
  have hlen : T.length = S.length := hl.symm
  have hcl : (combC α β S T).length = S.length := by simp [combC, hlen]
  unfold icwt2 at hx hy ⊢
  simp only at hx hy ⊢
  obtain ⟨u, hu, hx⟩ := bind_ok hx
  rw [hu, ok_bind] at hy ⊢
  obtain ⟨r, hr, hx⟩ := bind_ok hx
  rw [hr, ok_bind] at hy ⊢
  rw [hlen] at hy
  rw [hcl]
  split at hx
  · rename_i hst
    rw [if_pos hst] at hy ⊢
    split at hx
    · cases hx
    rename_i hll
    rw [if_neg hll] at hy ⊢
    obtain ⟨o, ho, hx⟩ := bind_ok hx
    rw [ho, ok_bind] at hy ⊢
    cases o with
    | none =>
      simp only at hx hy ⊢
      obtain ⟨x1, e1, hx⟩ := bind_ok hx
      obtain ⟨x2, e2, hx⟩ := bind_ok hx
      obtain ⟨y1, f1, hy⟩ := bind_ok hy
      obtain ⟨y2, f2, hy⟩ := bind_ok hy
      rw [icwt2Arr_comb n hn μ ν r.1 h e1 f1]
      rw [e1] at e2; rw [f1] at f2
      cases e2; cases f2
      cases hx; cases hy
      simp only [ok_bind, comb_zipAdd]
    | some idx =>
      simp only at hx hy ⊢
      obtain ⟨x1, e1, hx⟩ := bind_ok hx
      obtain ⟨x2, e2, hx⟩ := bind_ok hx
      obtain ⟨y1, f1, hy⟩ := bind_ok hy
      obtain ⟨y2, f2, hy⟩ := bind_ok hy
      rw [combC_take, combC_drop, icwt2Arr_comb n hn μ ν _ (h.take idx) e1 f1, icwt2Arr_comb n hn μ ν _ (h.drop idx) e2 f2]
      cases hx; cases hy
      simp only [ok_bind, comb_zipAdd]
  · rename_i hst
    rw [if_neg hst] at hy ⊢
    exact icwt2Top_comb n hn h r μ ν hx hy

/-- Three rows of two samples, padded by reflection. -/
example : ∃ x y, icwt2 2 [[1, 2], [3, 4], [5, Complex.I]] sc124 { icwt2Ex (some .reflect) false with xMean := 1 } = .ok x ∧
    icwt2 2 [[0, 1], [2, 2], [1, 1]] sc124 { icwt2Ex (some .reflect) false with xMean := 2 } = .ok y ∧
    icwt2 2 (combC 3 7 [[1, 2], [3, 4], [5, Complex.I]] [[0, 1], [2, 2], [1, 1]]) sc124 { icwt2Ex (some .reflect) false with xMean := 3 * 1 + 7 * 2 } =
      .ok (comb 3 7 x y) := by
  have ok : ∀ (W : List (List ℂ)) (μ : ℝ), W.length = 3 → (∀ w ∈ W, w.length = 2) →
      ∃ x, icwt2 2 W sc124 { icwt2Ex (some .reflect) false with xMean := μ } = .ok x := by
    intro W μ hl hW
    exact C98_succeeds 2 (by norm_num) W hW _ .reflect rfl rfl
      (by simp [icwt2Ex, argsR]) [3] .f64 [1, 2, 4] .log (.int 1) infer124 (by simp) hl
      ⟨_, process124 _ _ _ _⟩
  obtain ⟨x, hx⟩ := ok [[1, 2], [3, 4], [5, Complex.I]] 1 rfl (by simp)
  obtain ⟨y, hy⟩ := ok [[0, 1], [2, 2], [1, 1]] 2 rfl (by simp)
  exact ⟨x, y, hx, hy, C179_icwt2 2 (by norm_num) [[1, 2], [3, 4], [5, Complex.I]] [[0, 1], [2, 2], [1, 1]] rfl (by simp) (by simp) _ _ 3 7 1 2 x y hx hy⟩

end Ssq
