import Verif.Model.Resolution
import Verif.Props.FreqGrid

/-!
# Cached time-frequency properties (C84), frequency resolution (C85), `force_int` (C86)
-/
namespace Ssq

/-! ## C84 -/

/-- The value of a property on a new wavelet of length `N`. -/
noncomputable def Spec.freshTf (F : TfFns) (N : ℕ) : TfProp → ℝ
  | .wcCt => F.peakCt
  | .scalecCt => 4 / Real.pi * F.peakCt
  | .wc => F.wc (4 / Real.pi * F.peakCt) N
  | .stdT => F.stdT (4 / Real.pi * F.peakCt) N
  | .stdW => F.stdW (4 / Real.pi * F.peakCt) N
  | .stdTd => F.stdTd (4 / Real.pi * F.peakCt) N
  | .stdWd => F.stdWd (4 / Real.pi * F.peakCt) N

/-- C84 in full: after any program, reading a property gives the value for the wavelet's present length. -/
def C84_full : Prop := ∀ (F : TfFns) (N0 : ℕ) (h : List TfStep) (p : TfProp),
  (tfGet F p (tfRun F { N := N0 } h)).2 = Spec.freshTf F (tfRun F { N := N0 } h).N p

/-- Reachable: every stored value is the value for some length, the present one or one the wavelet had. -/
def TfInv (F : TfFns) (Ns : ℕ → Prop) (s : TfSt) : Prop :=
  Ns s.N ∧ ∀ p v, s.vals p = some v → ∃ n, Ns n ∧ v = Spec.freshTf F n p

variable (F : TfFns)

theorem put_vals_same (s : TfSt) (p : TfProp) (v : Option ℝ) : (s.put p v).vals p = v := by simp [TfSt.put]

theorem put_vals_ne (s : TfSt) (p q : TfProp) (v : Option ℝ) (h : q ≠ p) : (s.put p v).vals q = s.vals q := by
  simp [TfSt.put, Function.update_of_ne h]

/-- What reading a property does: it stores fresh values for the present length in some empty places; the value read is
the stored one. -/
theorem tfGet_spec (Ns : ℕ → Prop) (s : TfSt) (hs : TfInv F Ns s) (p : TfProp) :
    (tfGet F p s).1.N = s.N ∧
    (tfGet F p s).1.vals p = some (tfGet F p s).2 ∧
    (∀ q v, s.vals q = some v → (tfGet F p s).1.vals q = some v) ∧
    (∀ q, s.vals q = none → (tfGet F p s).1.vals q = none ∨ (tfGet F p s).1.vals q = some (Spec.freshTf F s.N q)) := by
  have hct : ∀ t : TfSt, TfInv F Ns t → (getWcCt F t).2 = F.peakCt ∧ (getWcCt F t).1.N = t.N ∧
      (getWcCt F t).1.vals .wcCt = some F.peakCt ∧ ∀ q, q ≠ .wcCt → (getWcCt F t).1.vals q = t.vals q := by
    intro t ht
    unfold getWcCt TfSt.memo
    rcases hv : t.vals .wcCt with _ | v
    · exact ⟨rfl, rfl, put_vals_same _ _ _, fun q hq => put_vals_ne _ _ _ _ hq⟩
    · obtain ⟨n, _, hn⟩ := ht.2 .wcCt v hv
      exact ⟨hn, rfl, by rw [hv, hn]; rfl, fun q _ => rfl⟩
  have hsc : ∀ t : TfSt, TfInv F Ns t → (getScalecCt F t).2 = 4 / Real.pi * F.peakCt ∧ (getScalecCt F t).1.N = t.N ∧
      (getScalecCt F t).1.vals .scalecCt = some (4 / Real.pi * F.peakCt) ∧
      (∀ q, q ≠ .wcCt → q ≠ .scalecCt → (getScalecCt F t).1.vals q = t.vals q) ∧
      ((getScalecCt F t).1.vals .wcCt = t.vals .wcCt ∨ (getScalecCt F t).1.vals .wcCt = some F.peakCt) ∧
      (∀ v, t.vals .wcCt = some v → (getScalecCt F t).1.vals .wcCt = some v) := by
    intro t ht
    unfold getScalecCt TfSt.memo
    rcases hv : t.vals .scalecCt with _ | v
    · obtain ⟨h1, h2, h3, h4⟩ := hct t ht
      refine ⟨by simp only [h1], h2, by rw [put_vals_same]; dsimp only; rw [h1], fun q hq hq' => by rw [put_vals_ne _ _ _ _ hq', h4 q hq],
        .inr (by rw [put_vals_ne _ _ _ _ (by simp), h3]), fun v hv' => ?_⟩
      rw [put_vals_ne _ _ _ _ (by simp), h3]
      obtain ⟨n, _, hn⟩ := ht.2 .wcCt v hv'
      rw [hn]; rfl
    · obtain ⟨n, _, hn⟩ := ht.2 .scalecCt v hv
      exact ⟨hn, rfl, by rw [hv, hn]; rfl, fun q _ _ => rfl, .inl rfl, fun v h => h⟩
  have hat : ∀ (p : TfProp) (g : ℝ → ℕ → ℝ), p ≠ .wcCt → p ≠ .scalecCt →
      (∀ n, Spec.freshTf F n p = g (4 / Real.pi * F.peakCt) n) →
      (getAtScale F p g s).1.N = s.N ∧
      (getAtScale F p g s).1.vals p = some (getAtScale F p g s).2 ∧
      (∀ q v, s.vals q = some v → (getAtScale F p g s).1.vals q = some v) ∧
      (∀ q, s.vals q = none → (getAtScale F p g s).1.vals q = none ∨
        (getAtScale F p g s).1.vals q = some (Spec.freshTf F s.N q)) := by
    intro p g hp1 hp2 hg
    unfold getAtScale TfSt.memo
    rcases hv : s.vals p with _ | v
    · obtain ⟨h1, h2, h3, h4, h5, h6⟩ := hsc s hs
      refine ⟨h2, put_vals_same _ _ _, fun q v hq => ?_, fun q hq => ?_⟩
      · have hqp : q ≠ p := fun e => by rw [e, hv] at hq; cases hq
        rw [put_vals_ne _ _ _ _ hqp]
        by_cases e1 : q = .wcCt
        · subst e1; exact h6 v hq
        · by_cases e2 : q = .scalecCt
          · subst e2
            rw [h3]
            obtain ⟨n, _, hn⟩ := hs.2 .scalecCt v hq
            rw [hn]; rfl
          · rw [h4 q e1 e2, hq]
      · by_cases hqp : q = p
        · subst hqp
          right
          rw [put_vals_same]; dsimp only; rw [h1, h2, hg]
        · rw [put_vals_ne _ _ _ _ hqp]
          by_cases e1 : q = .wcCt
          · subst e1
            rcases h5 with h | h
            · left; rw [h, hq]
            · right; rw [h]; rfl
          · by_cases e2 : q = .scalecCt
            · subst e2; right; rw [h3]; rfl
            · left; rw [h4 q e1 e2, hq]
    · exact ⟨rfl, hv, fun q v h => h, fun q h => .inl h⟩
  cases p with
  | wc => exact hat .wc F.wc (by simp) (by simp) fun _ => rfl
  | stdT => exact hat .stdT F.stdT (by simp) (by simp) fun _ => rfl
  | stdW => exact hat .stdW F.stdW (by simp) (by simp) fun _ => rfl
  | stdTd => exact hat .stdTd F.stdTd (by simp) (by simp) fun _ => rfl
  | stdWd => exact hat .stdWd F.stdWd (by simp) (by simp) fun _ => rfl
  | wcCt =>
    obtain ⟨h1, h2, h3, h4⟩ := hct s hs
    refine ⟨h2, by simp only [tfGet]; rw [h3, h1], fun q v hq => ?_, fun q hq => ?_⟩
    · by_cases e : q = .wcCt
      · subst e
        obtain ⟨n, _, hn⟩ := hs.2 .wcCt v hq
        simp only [tfGet]; rw [h3, hn]; rfl
      · simp only [tfGet]; rw [h4 q e, hq]
    · by_cases e : q = .wcCt
      · subst e; right; simp only [tfGet]; rw [h3]; rfl
      · left; simp only [tfGet]; rw [h4 q e, hq]
  | scalecCt =>
    obtain ⟨h1, h2, h3, h4, h5, h6⟩ := hsc s hs
    refine ⟨h2, by simp only [tfGet]; rw [h3, h1], fun q v hq => ?_, fun q hq => ?_⟩
    · by_cases e1 : q = .wcCt
      · subst e1; exact h6 v hq
      · by_cases e2 : q = .scalecCt
        · subst e2
          obtain ⟨n, _, hn⟩ := hs.2 .scalecCt v hq
          simp only [tfGet]; rw [h3, hn]; rfl
        · simp only [tfGet]; rw [h4 q e1 e2, hq]
    · by_cases e1 : q = .wcCt
      · subst e1
        rcases h5 with h | h
        · left; simp only [tfGet]; rw [h, hq]
        · right; simp only [tfGet]; rw [h]; rfl
      · by_cases e2 : q = .scalecCt
        · subst e2; right; simp only [tfGet]; rw [h3]; rfl
        · left; simp only [tfGet]; rw [h4 q e1 e2, hq]

theorem tfGet_inv (Ns : ℕ → Prop) (s : TfSt) (hs : TfInv F Ns s) (p : TfProp) : TfInv F Ns (tfGet F p s).1 := by
  obtain ⟨h1, _, h3, h4⟩ := tfGet_spec F Ns s hs p
  refine ⟨by rw [h1]; exact hs.1, fun q v hq => ?_⟩
  rcases hv : s.vals q with _ | u
  · rcases h4 q hv with h | h
    · rw [h] at hq; cases hq
    · rw [h] at hq; cases hq; exact ⟨s.N, hs.1, rfl⟩
  · rw [h3 q u hv] at hq; cases hq; exact hs.2 q v hv

theorem put_none_inv (Ns : ℕ → Prop) (s : TfSt) (hs : TfInv F Ns s) (p : TfProp) : TfInv F Ns (s.put p none) := by
  refine ⟨hs.1, fun q v hq => ?_⟩
  by_cases e : q = p
  · subst e; rw [put_vals_same] at hq; cases hq
  · rw [put_vals_ne _ _ _ _ e] at hq; exact hs.2 q v hq

/-- After `reset_properties`, whatever the iteration order, each property in the order is fresh. -/
theorem tfReset_spec (Ns : ℕ → Prop) (order : List TfProp) (s : TfSt) (hs : TfInv F Ns s) :
    TfInv F Ns (tfReset F order s) ∧ (tfReset F order s).N = s.N ∧
    ∀ p, p ∈ order ∨ s.vals p = some (Spec.freshTf F s.N p) → (tfReset F order s).vals p = some (Spec.freshTf F s.N p) := by
  induction order generalizing s with
  | nil => exact ⟨hs, rfl, fun p hp => by rcases hp with h | h; cases h; exact h⟩
  | cons q order ih =>
    have hput := put_none_inv F Ns s hs q
    obtain ⟨h1, h2, h3, h4⟩ := tfGet_spec F Ns _ hput q
    obtain ⟨i1, i2, i3⟩ := ih _ (tfGet_inv F Ns _ hput q)
    have hN : (tfGet F q (s.put q none)).1.N = s.N := h1
    refine ⟨i1, i2.trans hN, fun p hp => ?_⟩
    have hq : (tfGet F q (s.put q none)).1.vals q = some (Spec.freshTf F s.N q) := by
      rcases h4 q (put_vals_same _ _ _) with h | h
      · rw [h2] at h; cases h
      · exact h
    have := i3 p (by
      rcases hp with h | h
      · rcases List.mem_cons.1 h with rfl | h
        · right; rw [hN]; exact hq
        · exact .inl h
      · by_cases e : p = q
        · subst e; right; rw [hN]; exact hq
        · right
          rw [hN]
          exact h3 p _ (by rw [put_vals_ne _ _ _ _ e]; exact h))
    rw [hN] at this
    exact this

/-- The lengths a wavelet had in a program. -/
def Spec.lengths (N0 : ℕ) (h : List TfStep) (n : ℕ) : Prop := n = N0 ∨ .setN n ∈ h

theorem tfStep_inv (Ns : ℕ → Prop) (s : TfSt) (hs : TfInv F Ns s) (a : TfStep) (ha : ∀ n, a = .setN n → Ns n) :
    TfInv F Ns (tfStep F s a) := by
  cases a with
  | setN n => exact ⟨ha n rfl, hs.2⟩
  | get p => exact tfGet_inv F Ns s hs p
  | reset order => exact (tfReset_spec F Ns order s hs).1

theorem tfRun_inv (Ns : ℕ → Prop) (h : List TfStep) (s : TfSt) (hs : TfInv F Ns s) (hh : ∀ n, .setN n ∈ h → Ns n) :
    TfInv F Ns (tfRun F s h) := by
  induction h generalizing s with
  | nil => exact hs
  | cons a h ih =>
    refine ih _ (tfStep_inv F Ns s hs a fun n e => hh n (e ▸ List.mem_cons_self)) fun n hn => hh n (List.mem_cons_of_mem _ hn)

/-- **C84**, reset: after any program, `reset_properties` (which iterates over a set, in any order that contains every
property) makes every property the one of a new wavelet of the present length. -/
theorem C84_reset (N0 : ℕ) (h : List TfStep) (order : List TfProp) (hord : ∀ p, p ∈ order) (p : TfProp) :
    let s := tfRun F { N := N0 } (h ++ [.reset order])
    (tfGet F p s).2 = Spec.freshTf F s.N p := by
  intro s
  have hs0 : TfInv F (fun _ => True) (tfRun F { N := N0 } h) :=
    tfRun_inv F _ h _ ⟨trivial, fun p v hv => by simp at hv⟩ fun _ _ => trivial
  obtain ⟨i1, i2, i3⟩ := tfReset_spec F _ order _ hs0
  have e : s = tfReset F order (tfRun F { N := N0 } h) := by
    simp only [s, tfRun, List.foldl_append, List.foldl_cons, List.foldl_nil, tfStep]
  have hv := i3 p (.inl (hord p))
  rw [e]
  obtain ⟨_, h2, h3, _⟩ := tfGet_spec F _ _ i1 p
  have := h3 p _ hv
  rw [h2] at this
  rw [i2]
  exact Option.some.inj this

/-- **C84** without reset: a property read is the one for the present length or for an earlier one; `wc_ct` and
`scalec_ct` are right always. -/
theorem C84_history_partial (N0 : ℕ) (h : List TfStep) (p : TfProp) :
    (∃ n, Spec.lengths N0 h n ∧ (tfGet F p (tfRun F { N := N0 } h)).2 = Spec.freshTf F n p) ∧
    (p = .wcCt ∨ p = .scalecCt ∨ (∀ n, .setN n ∈ h → n = N0) →
      (tfGet F p (tfRun F { N := N0 } h)).2 = Spec.freshTf F (tfRun F { N := N0 } h).N p) := by
  have hs := tfRun_inv F (Spec.lengths N0 h) h { N := N0 } ⟨.inl rfl, fun p v hv => by simp at hv⟩ fun n hn => .inr hn
  have hg := tfGet_inv F _ _ hs p
  obtain ⟨h1, h2, _, _⟩ := tfGet_spec F _ _ hs p
  obtain ⟨n, hn, hv⟩ := hg.2 p _ h2
  refine ⟨⟨n, hn, hv⟩, fun hp => ?_⟩
  rw [hv]
  rcases hp with rfl | rfl | hp
  · rfl
  · rfl
  · have e1 : n = N0 := by rcases hn with h | h; exact h; exact hp n h
    have e2 : (tfRun F { N := N0 } h).N = N0 := by rcases hs.1 with h | h; exact h; exact hp _ h
    rw [e1, e2]

/-- Reading `wc`, then changing the length, leaves `wc` at its old value. -/
theorem C84_refuted : ¬ C84_full := fun h => by
  have := h ⟨0, fun _ n => n, fun _ _ => 0, fun _ _ => 0, fun _ _ => 0, fun _ _ => 0⟩ 8 [.get .wc, .setN 16] .wc
  simp [tfRun, tfStep, tfGet, getAtScale, TfSt.memo, getScalecCt, getWcCt, TfSt.put, Spec.freshTf, Function.update] at this

/-- An order to which `C84_reset` applies, with dependent properties first. -/
example : ∀ p, p ∈ [TfProp.wc, .stdT, .stdW, .stdTd, .stdWd, .scalecCt, .wcCt] := by intro p; cases p <;> simp

/-! ## C85 -/

/-- Mean of a distribution `p` over the uniform grid `x`, by the trapezoid rule. -/
noncomputable def Spec.trapMean (x p : List ℝ) : ℝ := trapz (List.zipWith (fun a b => a * b) x p) / trapz p

/-- Its variance. -/
noncomputable def Spec.trapVar (x p : List ℝ) : ℝ :=
  trapz (List.zipWith (fun a b => (a - Spec.trapMean x p) ^ 2 * b) x p) / trapz p

/-- C85 in full: the frequency resolution at length `N` is the standard deviation of the wavelet's energy over the `N`
frequencies. -/
def C85_full : Prop := ∀ (f : WFn) (peakCt scale : ℝ) (N : ℕ), 0 < scale → 2 ≤ N → N % 2 = 0 →
  trapz (apsih2 f scale (shiftedXi N)) ≠ 0 →
  freqResolution f peakCt scale N ^ 2 = Spec.trapVar (shiftedXi N) (apsih2 f scale (shiftedXi N))

theorem waveletAt_length (f : WFn) (w : List ℝ) (th : Option ℝ) : (waveletAt f w th).length = w.length := by
  cases f with
  | real g => simp [waveletAt]
  | cplx g =>
    cases th with
    | none => simp [waveletAt]
    | some t => simp only [waveletAt]; split_ifs <;> simp

theorem apsih2_length (f : WFn) (scale : ℝ) (w : List ℝ) : (apsih2 f scale w).length = w.length := by
  simp [apsih2, waveletAt_length]

theorem apsih2_nonneg (f : WFn) (scale : ℝ) (w : List ℝ) (i : ℕ) : 0 ≤ (apsih2 f scale w).getD i 0 := by
  rw [List.getD_eq_getElem?_getD]
  unfold apsih2
  rw [List.getElem?_map]
  cases (waveletAt f (w.map fun x => scale * x) (some (1 / 10 ^ 8)))[i]? with
  | none => simp
  | some z => exact Complex.normSq_nonneg z

theorem zipWith_getD0 (g : ℝ → ℝ → ℝ) (x p : List ℝ) (hl : x.length = p.length) (hg : g 0 0 = 0) (i : ℕ) :
    (List.zipWith g x p).getD i 0 = g (x.getD i 0) (p.getD i 0) := by
  simp only [List.getD_eq_getElem?_getD]
  rw [List.getElem?_zipWith]
  by_cases hi : i < x.length
  · rw [List.getElem?_eq_getElem hi, List.getElem?_eq_getElem (by omega)]; simp
  · rw [List.getElem?_eq_none (by omega), List.getElem?_eq_none (by omega)]; simp [hg]

/-- The trapezoid rule on a uniform grid. -/
theorem trapzX_uniform (y x : List ℝ) (d : ℝ) (hd : ∀ i, i + 1 < y.length → x.getD (i + 1) 0 - x.getD i 0 = d) :
    trapzX y x = d * trapz y := by
  unfold trapzX trapz
  rw [← List.sum_map_mul_left]
  congr 1
  refine List.map_congr_left fun i hi => ?_
  rw [List.mem_range] at hi
  rw [hd i (by omega)]

theorem shiftedXi_step (N : ℕ) (hN : 2 ≤ N) (he : N % 2 = 0) (i : ℕ) (hi : i + 1 < N) :
    (shiftedXi N).getD (i + 1) 0 - (shiftedXi N).getD i 0 = 2 * Real.pi * 1 / N := by
  obtain ⟨_, h2, _⟩ := C50_sorted_partial 1 one_pos N hN he
  unfold shiftedXi
  rw [h2 (i + 1) hi, h2 i (by omega)]
  push_cast
  ring

theorem shiftedXi_length (N : ℕ) (hN : 2 ≤ N) (he : N % 2 = 0) : (shiftedXi N).length = N :=
  (C50_sorted_partial 1 one_pos N hN he).1

/-- The second moment about any point. -/
theorem trapz_shift (x p : List ℝ) (hl : x.length = p.length) (h0 : trapz p ≠ 0) (c : ℝ) :
    trapz (List.zipWith (fun a b => (a - c) ^ 2 * b) x p) / trapz p =
      Spec.trapVar x p + (Spec.trapMean x p - c) ^ 2 := by
  have key : ∀ c : ℝ, trapz (List.zipWith (fun a b => (a - c) ^ 2 * b) x p) =
      trapz (List.zipWith (fun a b => a ^ 2 * b) x p) - 2 * c * trapz (List.zipWith (fun a b => a * b) x p) + c ^ 2 * trapz p := by
    intro c
    unfold trapz
    simp only [List.length_zipWith, hl, min_self]
    rw [← List.sum_map_mul_left, ← List.sum_map_mul_left, sub_eq_add_neg, ← neg_one_mul, ← List.sum_map_mul_left,
      ← List.sum_map_add, ← List.sum_map_add]
    congr 1
    refine List.map_congr_left fun i _ => ?_
    rw [zipWith_getD0 _ _ _ hl (by simp), zipWith_getD0 _ _ _ hl (by simp), zipWith_getD0 _ _ _ hl (by simp),
      zipWith_getD0 _ _ _ hl (by simp), zipWith_getD0 _ _ _ hl (by simp), zipWith_getD0 _ _ _ hl (by simp)]
    ring
  unfold Spec.trapVar
  rw [key c, key (Spec.trapMean x p)]
  have hm : trapz (List.zipWith (fun a b => a * b) x p) = Spec.trapMean x p * trapz p := by
    unfold Spec.trapMean; field_simp
  rw [hm]
  field_simp
  ring

theorem trapz_nonneg (y : List ℝ) (h : ∀ i, 0 ≤ y.getD i 0) : 0 ≤ trapz y := by
  unfold trapz
  refine List.sum_nonneg fun v hv => ?_
  obtain ⟨i, _, rfl⟩ := List.mem_map.1 hv
  exact div_nonneg (add_nonneg (h i) (h (i + 1))) zero_le_two

/-- What the frequency resolution is, for every even length: the deviation about the mean at length 1024. -/
theorem C85_exact (f : WFn) (peakCt scale : ℝ) (N : ℕ) (hN : 2 ≤ N) (he : N % 2 = 0)
    (h0 : trapz (apsih2 f scale (shiftedXi N)) ≠ 0) :
    freqResolution f peakCt scale N ^ 2 =
      Spec.trapVar (shiftedXi N) (apsih2 f scale (shiftedXi N)) +
        (Spec.trapMean (shiftedXi N) (apsih2 f scale (shiftedXi N)) -
          Spec.trapMean (shiftedXi 1024) (apsih2 f scale (shiftedXi 1024))) ^ 2 := by
  have hl : (shiftedXi N).length = (apsih2 f scale (shiftedXi N)).length := (apsih2_length _ _ _).symm
  have hlen := shiftedXi_length N hN he
  have hwce : centerEnergy f peakCt (some scale) 1024 (some true) =
      Spec.trapMean (shiftedXi 1024) (apsih2 f scale (shiftedXi 1024)) := by
    unfold centerEnergy energyWc energyMean Spec.trapMean
    simp only [Option.getD_some, Bool.or_self, if_true]
    rw [List.zipWith_comm]
    simp only [mul_comm]
  have hd : (2 * Real.pi * 1 / N : ℝ) ≠ 0 := by
    have : (0 : ℝ) < N := by exact_mod_cast (by omega : 0 < N)
    positivity
  unfold freqResolution
  simp only
  rw [hwce, ← trapz_shift _ _ hl h0, trapzX_uniform _ _ (2 * Real.pi * 1 / N), trapzX_uniform _ _ (2 * Real.pi * 1 / N),
    mul_div_mul_left _ _ hd, Real.sq_sqrt]
  · refine div_nonneg (trapz_nonneg _ fun i => ?_) (trapz_nonneg _ fun i => apsih2_nonneg _ _ _ i)
    rw [zipWith_getD0 _ _ _ hl (by simp)]
    exact mul_nonneg (sq_nonneg _) (apsih2_nonneg _ _ _ i)
  · intro i hi
    exact shiftedXi_step N hN he i (by rw [apsih2_length, hlen] at hi; exact hi)
  · intro i hi
    refine shiftedXi_step N hN he i ?_
    rw [List.length_zipWith, apsih2_length, hlen, min_self] at hi
    exact hi

/-- **C85** for length 1024. -/
theorem C85_1024_partial (f : WFn) (peakCt scale : ℝ) (h0 : trapz (apsih2 f scale (shiftedXi 1024)) ≠ 0) :
    freqResolution f peakCt scale 1024 ^ 2 = Spec.trapVar (shiftedXi 1024) (apsih2 f scale (shiftedXi 1024)) := by
  rw [C85_exact f peakCt scale 1024 (by norm_num) (by norm_num) h0, sub_self]
  ring

theorem apsih2_const (scale : ℝ) (w : List ℝ) : apsih2 (.real fun _ => 1) scale w = List.replicate w.length 1 := by
  unfold apsih2 waveletAt
  simp [WFn.eval, Function.comp_def, List.map_const']

theorem trapz_ones (n : ℕ) : trapz (List.replicate n 1) = ((n - 1 : ℕ) : ℝ) := by
  unfold trapz
  have : ((List.range ((List.replicate n (1 : ℝ)).length - 1)).map fun i : ℕ =>
      ((List.replicate n (1 : ℝ)).getD i 0 + (List.replicate n (1 : ℝ)).getD (i + 1) 0) / 2) =
      (List.range (n - 1)).map fun _ => (1 : ℝ) := by
    rw [List.length_replicate]
    refine List.map_congr_left fun i hi => ?_
    rw [List.mem_range] at hi
    rw [List.getD_replicate _ (by omega), List.getD_replicate _ (by omega)]
    norm_num
  rw [this]
  simp

theorem zip_ones (l : List ℝ) : List.zipWith (fun a b : ℝ => a * b) l (List.replicate l.length 1) = l := by
  induction l with
  | nil => rfl
  | cons a l ih => simp [List.replicate_succ, ih]

/-- The mean of a flat spectrum is half a step above 0. -/
theorem mean_flat (N : ℕ) (hN : 2 ≤ N) (he : N % 2 = 0) :
    Spec.trapMean (shiftedXi N) (List.replicate N 1) = Real.pi / N := by
  have hlen := shiftedXi_length N hN he
  have hz := zip_ones (shiftedXi N)
  rw [hlen] at hz
  unfold Spec.trapMean
  rw [hz, trapz_ones]
  have hN0 : (0 : ℝ) < N := by exact_mod_cast (by omega : 0 < N)
  obtain ⟨_, h2, _⟩ := C50_sorted_partial 1 one_pos N hN he
  have hsum : ∀ m, m ≤ N - 1 → ((List.range m).map fun i : ℕ => ((shiftedXi N).getD i 0 + (shiftedXi N).getD (i + 1) 0) / 2).sum =
      2 * Real.pi / N * (m * (m + 2 - N : ℝ) / 2) := by
    intro m
    induction m with
    | zero => intro _; simp
    | succ m ih =>
      intro hm
      rw [List.range_succ, List.map_append, List.sum_append, ih (by omega)]
      simp only [List.map_cons, List.map_nil, List.sum_cons, List.sum_nil]
      unfold shiftedXi
      rw [h2 m (by omega), h2 (m + 1) (by omega)]
      have hh : ((((N / 2 : ℕ) : ℤ)) : ℝ) = N / 2 := by
        rw [eq_div_iff two_ne_zero]; exact_mod_cast (by omega : N / 2 * 2 = N)
      rw [Int.cast_sub, Int.cast_sub, hh]
      push_cast
      ring
  unfold trapz
  rw [hlen, hsum (N - 1) le_rfl]
  have hc : ((N - 1 : ℕ) : ℝ) = N - 1 := by rw [Nat.cast_sub (by omega)]; simp
  have hne : (N : ℝ) - 1 ≠ 0 := by
    have : (2 : ℝ) ≤ N := by exact_mod_cast hN
    linarith
  rw [hc]
  field_simp
  ring

theorem C85_refuted : ¬ C85_full := fun h => by
  have hl2 := shiftedXi_length 2 le_rfl rfl
  have hl := shiftedXi_length 1024 (by norm_num) (by norm_num)
  have h0 : trapz (apsih2 (.real fun _ => 1) 1 (shiftedXi 2)) ≠ 0 := by
    rw [apsih2_const, hl2, trapz_ones]; norm_num
  have h1 := h (.real fun _ => 1) 0 1 2 one_pos le_rfl rfl h0
  rw [C85_exact _ _ _ 2 le_rfl rfl h0] at h1
  rw [apsih2_const, apsih2_const, hl, hl2, mean_flat 2 le_rfl rfl, mean_flat 1024 (by norm_num) (by norm_num)] at h1
  have hpi := Real.pi_pos
  have : (Real.pi / (2 : ℕ) - Real.pi / (1024 : ℕ)) ^ 2 = 0 := by linarith
  rw [sq_eq_zero_iff] at this
  push_cast at this
  linarith

/-- The hypothesis of the C85 theorems holds for a flat spectrum of every even length. -/
example (N : ℕ) (hN : 2 ≤ N) (he : N % 2 = 0) : trapz (apsih2 (.real fun _ => 1) 1 (shiftedXi N)) ≠ 0 := by
  rw [apsih2_const, shiftedXi_length N hN he, trapz_ones]
  exact_mod_cast (by omega : N - 1 ≠ 0)

/-! ## C86 -/

/-- C86 in full: `force_int=False` computes at the scale that centres the wavelet, and rescales. -/
def C86_full : Prop := ∀ (f : WFn) (peakCt scale : ℝ) (N : ℕ), 0 < scale → 0 < peakCt →
  centerEnergy f peakCt (some scale) N (some false) =
    energyMean f (4 / Real.pi * peakCt) N * ((4 / Real.pi * peakCt) / scale)

/-- `force_int` has no effect at all: the integral is always taken at the scale asked for. -/
theorem C86_ignored (f : WFn) (peakCt : ℝ) (scale : Option ℝ) (N : ℕ) (fi : Option Bool) :
    centerEnergy f peakCt scale N fi = energyMean f (scale.getD (4 / Real.pi * peakCt)) N := by
  unfold centerEnergy energyWc
  simp

/-- A flat spectrum of length 2. -/
theorem C86_refuted : ¬ C86_full := fun h => by
  have h1 := h (.real fun _ => 1) Real.pi 1 2 one_pos Real.pi_pos
  rw [C86_ignored] at h1
  have hm : ∀ s : ℝ, energyMean (.real fun _ => 1) s 2 = Real.pi / 2 := by
    intro s
    have := mean_flat 2 le_rfl rfl
    unfold energyMean
    rw [apsih2_const, shiftedXi_length 2 le_rfl rfl]
    unfold Spec.trapMean at this
    rw [List.zipWith_comm]
    simp only [mul_comm] at this ⊢
    rw [this]
    norm_num
  rw [hm, hm] at h1
  have hpi := Real.pi_pos
  have : (4 / Real.pi * Real.pi / 1 : ℝ) = 4 := by field_simp
  rw [this] at h1
  linarith

/-- **C86** at the centring scale, where both agree. -/
theorem C86_centred_partial (f : WFn) (peakCt : ℝ) (N : ℕ) (h : peakCt ≠ 0) :
    centerEnergy f peakCt (some (4 / Real.pi * peakCt)) N (some false) =
      energyMean f (4 / Real.pi * peakCt) N * ((4 / Real.pi * peakCt) / (4 / Real.pi * peakCt)) := by
  rw [C86_ignored, div_self (mul_ne_zero (div_ne_zero four_ne_zero Real.pi_ne_zero) h), mul_one]
  rfl

/-- At the centring scale of a peak at 1. -/
example : centerEnergy (.real fun w => w) 1 (some (4 / Real.pi * 1)) 8 (some false) =
    energyMean (.real fun w => w) (4 / Real.pi * 1) 8 := by
  rw [C86_centred_partial (.real fun w => w) 1 8 one_ne_zero, div_self (by positivity), mul_one]

end Ssq
