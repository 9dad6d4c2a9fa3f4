import Verif.Props.Squeeze
import Verif.Lemmas.Near

/-!
# C18–C20, C22–C25: where the energy goes, flipping, fusing, thresholding, linearity
-/
namespace Ssq
open Finset

theorem squeezed_of_bin {d : Device} {M N : ℕ} {Wx : ℕ → ℕ → ℂ} {w : ℕ → ℕ → Phase}
    {flipud : Bool} {Tx : ℤ → ℕ → ℂ} {c : List ℝ} {p : BinParams}
    (hT : ∀ r, ∀ j < N, Tx r j = 0 + ∑ i ∈ range M,
        match w i j with
        | .inf => 0
        | .fin x => if flipRow flipud ((M : ℤ) - 1) (binTP d p ((M : ℤ) - 1) x) = r
            then Wx i j * ((c.getD i 0 : ℝ) : ℂ) else 0)
    (hr : ∀ i < M, ∀ j < N, ∀ x, w i j = .fin x →
      0 ≤ binTP d p ((M : ℤ) - 1) x ∧ binTP d p ((M : ℤ) - 1) x ≤ (M : ℤ) - 1) (hM : 1 ≤ M) :
    ∀ r < M, ∀ j < N, Tx r j = Spec.squeezed M Wx (fun i => c.getD i 0) w
      (fun x => Spec.flip flipud M (binTP d p ((M : ℤ) - 1) x).toNat) r j := by
  intro r hrM j hj
  rw [hT r j hj, zero_add]
  unfold Spec.squeezed
  apply sum_congr rfl
  intro i hiM
  rcases hw : w i j with _ | x
  · rfl
  · have := hr i (mem_range.mp hiM) j hj x hw
    simp only
    have e : (flipRow flipud ((M : ℤ) - 1) (binTP d p ((M : ℤ) - 1) x) = (r : ℤ)) ↔
        (Spec.flip flipud M (binTP d p ((M : ℤ) - 1) x).toNat = r) := by
      unfold flipRow Spec.flip
      split <;> omega
    by_cases h : flipRow flipud ((M : ℤ) - 1) (binTP d p ((M : ℤ) - 1) x) = (r : ℤ)
    · rw [if_pos h, if_pos (e.mp h)]
    · rw [if_neg h, if_neg (fun h' => h (e.mpr h'))]

/-- **C18, weights.** With two or more rows, a scalar `const` and an array of one value weight every row by that value, an array with one value per row weights row `i` by its `i`-th value, and an
array of another length is refused, as is every `const` when there is one row. -/
theorem C18_weights (M : ℕ) :
    (∀ k, M ≠ 1 → ∃ c, constArr M (.scalar k) = .ok c ∧ constArr M (.array [k]) = .ok c ∧ c.length = M ∧ ∀ i < M, c.getD i 0 = k) ∧
    (∀ l : List ℝ, M ≠ 1 → l.length = M → ∃ c, constArr M (.array l) = .ok c ∧ c.length = M ∧ ∀ i < M, c.getD i 0 = l.getD i 0) ∧
    (∀ l : List ℝ, M ≠ 1 → l.length ≠ M → l.length ≠ 1 → constArr M (.array l) = .error .valueError) ∧
    ∀ const, M = 1 → constArr M const = .error .exception := by
  refine ⟨fun k hM => ⟨List.replicate M k, ?_, ?_, by simp, fun i hi => ?_⟩, fun l hM hl => ⟨l, ?_, hl, fun _ _ => rfl⟩, fun l hM hl h1 => ?_, fun const hM => ?_⟩
  · simp [constArr, hM]
  · unfold constArr
    simp only
    rw [if_neg hM, if_neg (by simpa using Ne.symm hM)]
  · rw [List.getD_eq_getElem _ _ (by simpa using hi)]
    simp
  · simp [constArr, hM, hl]
  · unfold constArr
    simp only
    rw [if_neg hM, if_neg hl]
    match l, h1 with
    | [], _ => rfl
    | [_], h1 => exact absurd rfl h1
    | _ :: _ :: _, _ => rfl
  · cases const <;> simp [constArr, hM]

/-- **C18.** On a uniform grid with one frequency per row, there is one destination row per phase
value; that row's frequency is nearest to the phase among all rows (ties: even row on the CPU,
larger row on the GPU), and each output cell is exactly the sum of the `Wx*const` moved there. -/
theorem C18_lin (d : Device) (th : ℝ) (M N : ℕ) (Wx : ℕ → ℕ → ℂ) (w : ℕ → ℕ → Phase) (v : List ℝ)
    (a s : ℝ) (hv : Spec.Uniform v a s) (hlen : v.length = M) (h2 : 2 ≤ M) (hs : eps64 ≤ s)
    (const : ConstArg) (flipud : Bool) (Tx : ℤ → ℕ → ℂ)
    (h : indexedSumOnfly d th M N (fun _ _ => 0) Wx w v const false flipud = .ok Tx) :
    ∃ c, constArr M const = .ok c ∧ ∃ row : ℝ → ℕ,
      (∀ x, Spec.Nearest v x (row x)) ∧
      (∀ x i, ∀ (hi : i < v.length) (hk : row x < v.length), i ≠ row x →
        |x - v[row x]| = |x - v[i]| → Spec.TieRule d (row x) i) ∧
      ∀ r < M, ∀ j < N, Tx r j =
        Spec.squeezed M Wx (fun i => c.getD i 0) w (fun x => Spec.flip flipud M (row x)) r j := by
  obtain ⟨c, p, hc, hp, hT⟩ := onfly_ok h
  have hspos : 0 < s := lt_of_lt_of_le eps64_pos hs
  have hpe : p = .lin a s := by
    unfold processSsqParams at hp
    simp only [Bool.false_eq_true, if_false] at hp
    match v, hv, hlen, hp with
    | [], _, hlen, _ => simp at hlen; omega
    | [_], _, hlen, _ => simp at hlen; omega
    | v0 :: v1 :: rest, hv, _, hp =>
      have e0 := hv 0 (by simp)
      have e1 := hv 1 (by simp)
      simp only [List.getElem_cons_zero, List.getElem_cons_succ] at e0 e1
      simp only [Except.ok.injEq] at hp
      rw [← hp, e0, e1]
      push_cast
      rw [show a + 1 * s - (a + 0 * s) = s by ring, ensure_of_le hs]
      simp
  subst hpe
  have h0 : (0 : ℤ) ≤ (M : ℤ) - 1 := by omega
  have hr : ∀ x, 0 ≤ binTP d (.lin a s) ((M : ℤ) - 1) x ∧
      binTP d (.lin a s) ((M : ℤ) - 1) x ≤ (M : ℤ) - 1 := fun x => by
    rw [bin_lin]; exact nr_range d h0 _
  have hcast : ∀ x, (((binTP d (.lin a s) ((M : ℤ) - 1) x).toNat : ℕ) : ℤ) =
      nr d ((M : ℤ) - 1) ((x - a) / s) := fun x => by
    rw [Int.toNat_of_nonneg (hr x).1, bin_lin]
  have hcast' : ∀ x, (((binTP d (.lin a s) ((M : ℤ) - 1) x).toNat : ℕ) : ℝ) =
      (nr d ((M : ℤ) - 1) ((x - a) / s) : ℤ) := fun x => by
    rw [← hcast x]; norm_cast
  refine ⟨c, hc, fun x => (binTP d (.lin a s) ((M : ℤ) - 1) x).toNat, ?_, ?_, ?_⟩
  · intro x
    refine ⟨by have := hr x; simp only; omega, ?_⟩
    intro i hi
    rw [hv _ _, hv i hi, hcast' x]
    exact_mod_cast grid_near d (x := x) (a := a) hspos (i := (i : ℤ)) h0 (by omega) (by omega)
  · intro x i hi hk hne ht
    rw [hv _ hk, hv i hi, hcast' x] at ht
    have := grid_tie d (x := x) (a := a) hspos (i := (i : ℤ)) h0 (by omega) (by omega)
      (by rw [← hcast x]; exact_mod_cast hne) (by exact_mod_cast ht)
    rw [← hcast x] at this
    exact this
  · exact squeezed_of_bin hT (fun i _ j _ x _ => hr x) (by omega)

/-- **C19.** On a geometric grid with one frequency per row (at least three), every positive phase value
goes to a row nearest in log-frequency (with the device's tie rule), and phase 0 goes to the
lowest row. -/
theorem C19_log (d : Device) (th : ℝ) (M N : ℕ) (Wx : ℕ → ℕ → ℂ) (w : ℕ → ℕ → Phase) (v : List ℝ)
    (a s : ℝ) (hv : Spec.Geometric v a s) (hlen : v.length = M) (h3 : 3 ≤ M) (hs : eps64 ≤ s)
    (const : ConstArg) (flipud : Bool) (Tx : ℤ → ℕ → ℂ)
    (hw : ∀ i < M, ∀ j < N, ∀ x, w i j = .fin x → 0 ≤ x)
    (h : indexedSumOnfly d th M N (fun _ _ => 0) Wx w v const true flipud = .ok Tx) :
    ∃ c, constArr M const = .ok c ∧ ∃ row : ℝ → ℕ,
      (∀ x, 0 < x → Spec.NearestLog v x (row x)) ∧ row 0 = 0 ∧
      (∀ x, 0 < x → ∀ i, ∀ (hi : i < v.length) (hk : row x < v.length), i ≠ row x →
        |Real.logb 2 x - Real.logb 2 v[row x]| = |Real.logb 2 x - Real.logb 2 v[i]| →
        Spec.TieRule d (row x) i) ∧
      ∀ r < M, ∀ j < N, Tx r j =
        Spec.squeezed M Wx (fun i => c.getD i 0) w (fun x => Spec.flip flipud M (row x)) r j := by
  obtain ⟨c, p, hc, hp, hT⟩ := onfly_ok h
  have hspos : 0 < s := lt_of_lt_of_le eps64_pos hs
  have hpe : p = .log a s := by
    unfold processSsqParams paramsFindClosestLog at hp
    rw [transition_geometric hv (by omega)] at hp
    simp only [if_true, ok_bind, pure_eq_ok, Except.ok.injEq] at hp
    rw [← hp, List.getD_eq_getElem _ _ (by omega : 0 < v.length),
      List.getD_eq_getElem _ _ (by omega : 1 < v.length), (hv 0 (by omega)).2, (hv 1 (by omega)).2]
    push_cast
    rw [show a + 1 * s - (a + 0 * s) = s by ring, ensure_of_le hs]
    simp
  subst hpe
  have h0 : (0 : ℤ) ≤ (M : ℤ) - 1 := by omega
  have hr : ∀ x, 0 < x → 0 ≤ binTP d (.log a s) ((M : ℤ) - 1) x ∧
      binTP d (.log a s) ((M : ℤ) - 1) x ≤ (M : ℤ) - 1 := fun x hx => by
    rw [bin_log _ _ _ _ hx]; exact nr_range d h0 _
  have hcast : ∀ x, 0 < x → (((binTP d (.log a s) ((M : ℤ) - 1) x).toNat : ℕ) : ℤ) =
      nr d ((M : ℤ) - 1) ((Real.logb 2 x - a) / s) := fun x hx => by
    rw [Int.toNat_of_nonneg (hr x hx).1, bin_log _ _ _ _ hx]
  have hcast' : ∀ x, 0 < x → (((binTP d (.log a s) ((M : ℤ) - 1) x).toNat : ℕ) : ℝ) =
      (nr d ((M : ℤ) - 1) ((Real.logb 2 x - a) / s) : ℤ) := fun x hx => by
    rw [← hcast x hx]; norm_cast
  refine ⟨c, hc, fun x => (binTP d (.log a s) ((M : ℤ) - 1) x).toNat, ?_, ?_, ?_, ?_⟩
  · intro x hx
    refine ⟨by have := hr x hx; simp only; omega, ?_⟩
    intro i hi
    rw [(hv _ _).2, (hv i hi).2, hcast' x hx]
    exact_mod_cast grid_near d (x := Real.logb 2 x) (a := a) hspos (i := (i : ℤ)) h0 (by omega)
      (by omega)
  · simp only [bin_log_zero d a s h0, Int.toNat_zero]
  · intro x hx i hi hk hne ht
    rw [(hv _ hk).2, (hv i hi).2, hcast' x hx] at ht
    have := grid_tie d (x := Real.logb 2 x) (a := a) hspos (i := (i : ℤ)) h0 (by omega) (by omega)
      (by rw [← hcast x hx]; exact_mod_cast hne) (by exact_mod_cast ht)
    rw [← hcast x hx] at this
    exact this
  · refine squeezed_of_bin hT ?_ (by omega)
    intro i hi j hj x hx
    rcases (hw i hi j hj x hx).eq_or_lt with h | h
    · subst h; rw [bin_log_zero d a s h0]; omega
    · exact hr x h

/-- **C20.** On a two-segment log grid with one frequency per row, every positive phase value goes to
a row nearest in log-frequency among *all* rows, phase 0 goes to the lowest row, and the
destination row is non-decreasing in the phase. -/
theorem C20_piecewise (d : Device) (th : ℝ) (hth : 0 < th) (M N : ℕ) (Wx : ℕ → ℕ → ℂ)
    (w : ℕ → ℕ → Phase) (v : List ℝ) (q : ℕ) (a d0 d1 : ℝ) (hv : Spec.TwoSegment v q a d0 d1)
    (hlen : v.length = M) (hd0 : eps64 ≤ d0) (hd1 : eps64 ≤ d1) (hne : d0 ≠ d1)
    (const : ConstArg) (flipud : Bool) (Tx : ℤ → ℕ → ℂ)
    (hw : ∀ i < M, ∀ j < N, ∀ x, w i j = .fin x → 0 ≤ x)
    (h : indexedSumOnfly d th M N (fun _ _ => 0) Wx w v const true flipud = .ok Tx) :
    ∃ c, constArr M const = .ok c ∧ ∃ row : ℝ → ℕ,
      (∀ x, 0 < x → Spec.NearestLog v x (row x)) ∧ row 0 = 0 ∧
      (∀ x y, 0 ≤ x → x ≤ y → row x ≤ row y) ∧
      ∀ r < M, ∀ j < N, Tx r j =
        Spec.squeezed M Wx (fun i => c.getD i 0) w (fun x => Spec.flip flipud M (row x)) r j := by
  obtain ⟨c, p, hc, hp, hT⟩ := onfly_ok h
  have hpos0 : 0 < d0 := lt_of_lt_of_le eps64_pos hd0
  have hpos1 : 0 < d1 := lt_of_lt_of_le eps64_pos hd1
  have hq1 := hv.1
  have hq2 := hv.2.1
  have hpe : p = .logPiecewise a (a + q * d0) d0 d1 q := by
    unfold processSsqParams at hp
    simp only [if_true, twoSeg_params hth hv hne, ensure_of_le hd0, ensure_of_le hd1,
      Except.ok.injEq] at hp
    exact hp.symm
  subst hpe
  set b := binTP d (.logPiecewise a (a + q * d0) d0 d1 q) ((M : ℤ) - 1) with hbdef
  have hbx : ∀ x, 0 < x → b x = if a + q * d0 < Real.logb 2 x
      then nr d ((M : ℤ) - 1 - q) ((Real.logb 2 x - (a + q * d0)) / d1) + q
      else nr d q ((Real.logb 2 x - a) / d0) := by
    intro x hx
    refine bin_piece d (by omega) hpos1 hpos0 ?_ hx
    rw [div_le_iff₀ hpos0]; push_cast; linarith
  have hb0 : b 0 = 0 := bin_piece_zero _ _ _ _ _ _ _
  have ho1 : (0 : ℤ) ≤ (M : ℤ) - 1 - q := by omega
  have ho0 : (0 : ℤ) ≤ (q : ℤ) := by omega
  have hr : ∀ x, 0 < x → 0 ≤ b x ∧ b x ≤ (M : ℤ) - 1 := by
    intro x hx
    rw [hbx x hx]
    split_ifs
    · have := nr_range d ho1 ((Real.logb 2 x - (a + q * d0)) / d1); omega
    · have := nr_range d ho0 ((Real.logb 2 x - a) / d0); omega
  have hcast : ∀ x, 0 < x → (((b x).toNat : ℕ) : ℤ) = b x := fun x hx =>
    Int.toNat_of_nonneg (hr x hx).1
  have hseg1 : ∀ i, ∀ hi : i < v.length, q ≤ i →
      Real.logb 2 v[i] = (a + q * d0) + ((i : ℤ) - (q : ℤ) : ℤ) * d1 := by
    intro i hi hqi
    rw [(hv.2.2 i hi).2]
    split
    · have : i = q := by omega
      subst this; simp
    · push_cast; ring
  have hseg0 : ∀ i, ∀ hi : i < v.length, i ≤ q → Real.logb 2 v[i] = a + ((i : ℤ) : ℤ) * d0 := by
    intro i hi hqi
    rw [(hv.2.2 i hi).2, if_pos hqi]; push_cast; ring
  refine ⟨c, hc, fun x => (b x).toNat, ?_, by simp [hb0], ?_, ?_⟩
  · intro x hx
    have hrx := hr x hx
    refine ⟨by simp only; omega, ?_⟩
    intro i hi
    have hb := hbx x hx
    by_cases hbr : a + q * d0 < Real.logb 2 x
    · rw [if_pos hbr] at hb
      have hn := nr_range d ho1 ((Real.logb 2 x - (a + q * d0)) / d1)
      rw [hseg1 (b x).toNat (by omega) (by omega), hcast x hx, hb]
      rw [show nr d ((M : ℤ) - 1 - q) ((Real.logb 2 x - (a + q * d0)) / d1) + (q : ℤ) - (q : ℤ) =
        nr d ((M : ℤ) - 1 - q) ((Real.logb 2 x - (a + q * d0)) / d1) by omega]
      by_cases hqi : q ≤ i
      · rw [hseg1 i hi hqi]
        exact grid_near d hpos1 ho1 (by omega) (by omega)
      · have h1 := grid_near d (x := Real.logb 2 x) (a := a + q * d0) hpos1 (i := 0) ho1 le_rfl ho1
        refine h1.trans ?_
        rw [hseg0 i hi (by omega)]
        have h2 : (i : ℝ) ≤ q := by exact_mod_cast (by omega : i ≤ q)
        have h3 : (i : ℝ) * d0 ≤ q * d0 := mul_le_mul_of_nonneg_right h2 hpos0.le
        push_cast
        rw [abs_of_nonneg (by linarith), abs_of_nonneg (by linarith)]
        linarith
    · rw [if_neg hbr] at hb
      have hn := nr_range d ho0 ((Real.logb 2 x - a) / d0)
      rw [hseg0 (b x).toNat (by omega) (by omega), hcast x hx, hb]
      by_cases hqi : i ≤ q
      · rw [hseg0 i hi hqi]
        exact grid_near d hpos0 ho0 (by omega) (by omega)
      · have h1 := grid_near d (x := Real.logb 2 x) (a := a) hpos0 (i := q) ho0 ho0 le_rfl
        refine h1.trans ?_
        rw [hseg1 i hi (by omega)]
        have h2 : (0 : ℝ) ≤ ((i : ℤ) - (q : ℤ) : ℤ) := by
          exact_mod_cast (by omega : (0 : ℤ) ≤ (i : ℤ) - q)
        have h3 : 0 ≤ (((i : ℤ) - (q : ℤ) : ℤ) : ℝ) * d1 := mul_nonneg h2 hpos1.le
        have h4 : (((q : ℤ) : ℤ) : ℝ) = q := by push_cast; rfl
        rw [h4, abs_of_nonpos (by linarith), abs_of_nonpos (by linarith)]
        linarith
  · intro x y hx hxy
    apply Int.toNat_le_toNat
    rcases hx.eq_or_lt with h | hx
    · subst h
      rw [hb0]
      rcases hxy.eq_or_lt with h | hy
      · rw [← h, hb0]
      · exact (hr y hy).1
    · have hy := lt_of_lt_of_le hx hxy
      have hl : Real.logb 2 x ≤ Real.logb 2 y := Real.logb_le_logb_of_le (by norm_num) hx hxy
      rw [hbx x hx, hbx y hy]
      split_ifs with h1 h2 h2
      · have := nr_mono d ho1 (t := (Real.logb 2 x - (a + q * d0)) / d1)
          (s := (Real.logb 2 y - (a + q * d0)) / d1)
          (div_le_div_of_nonneg_right (by linarith) hpos1.le)
        omega
      · exact absurd (lt_of_lt_of_le h1 hl) h2
      · have e1 := nr_range d ho0 ((Real.logb 2 x - a) / d0)
        have e2 := nr_range d ho1 ((Real.logb 2 y - (a + q * d0)) / d1)
        omega
      · exact nr_mono d ho0 (div_le_div_of_nonneg_right (by linarith) hpos0.le)
  · refine squeezed_of_bin hT ?_ (by omega)
    intro i hi j hj x hx
    rcases (hw i hi j hj x hx).eq_or_lt with h | h
    · subst h; rw [← hbdef, hb0]; omega
    · exact hr x h

/-! ## C22: flipud -/

/-- **C22, two-pass.** Flipping reverses the rows and nothing else (and neither call fails unless
the other does). -/
theorem C22_two_pass (d : Device) (th : ℝ) (M N : ℕ) (Wx : ℕ → ℕ → ℂ) (w : ℕ → ℕ → Phase)
    (v : List ℝ) (const : ConstArg) (logscale : Bool) (Tx : ℤ → ℕ → ℂ)
    (h : indexedSumOnfly d th M N (fun _ _ => 0) Wx w v const logscale false = .ok Tx) :
    ∃ Tx', indexedSumOnfly d th M N (fun _ _ => 0) Wx w v const logscale true = .ok Tx' ∧
      ∀ r : ℤ, ∀ j < N, Tx' r j = Tx ((M : ℤ) - 1 - r) j := by
  obtain ⟨c, p, hc, hp, hT⟩ := onfly_ok h
  have hex : ∃ Tx', indexedSumOnfly d th M N (fun _ _ => 0) Wx w v const logscale true =
      .ok Tx' := by
    unfold indexedSumOnfly onflyBody
    simp only [hc, hp, ok_bind, pure_eq_ok]
    exact ⟨_, rfl⟩
  obtain ⟨Tx', h'⟩ := hex
  refine ⟨Tx', h', ?_⟩
  obtain ⟨c', p', hc', hp', hT'⟩ := onfly_ok h'
  rw [hc] at hc'; rw [hp] at hp'
  simp only [Except.ok.injEq] at hc' hp'
  subst hc' hp'
  intro r j hj
  rw [hT' r j hj, hT _ j hj]
  congr 1
  apply sum_congr rfl
  intro i _
  rcases w i j with _ | x
  · rfl
  · simp only [flipRow, if_true, Bool.false_eq_true, if_false]
    have e : ((M : ℤ) - 1 - binTP d p ((M : ℤ) - 1) x = r) ↔
      (binTP d p ((M : ℤ) - 1) x = (M : ℤ) - 1 - r) := by omega
    simp only [e]

/-! ## C23: fused and two-pass kernels -/

open Classical in
/-- The fused CWT kernel is *exactly* the two-pass kernel run on the phase that is finite
where `|Wx| > gamma`. -/
theorem fast_eq_onfly_cwt (d : Device) (th : ℝ) (M N : ℕ) (out : ℤ → ℕ → ℂ) (Wx dWx : ℕ → ℕ → ℂ)
    (v : List ℝ) (const : ConstArg) (logscale flipud : Bool) (gamma : ℝ) :
    ssqueezeFast d th M N out Wx dWx v const logscale flipud gamma none =
      indexedSumOnfly d th M N out Wx
        (fun i j => if gamma < ‖Wx i j‖ then .fin (cwtFreq (Wx i j) (dWx i j)) else .inf)
        v const logscale flipud := by
  have hbin : binF d = binTP d := by
    funext p omax x
    rcases d with _ | _
    · exact binFused_eq p omax x
    · rfl
  unfold ssqueezeFast indexedSumOnfly fastBody onflyBody
  rcases constArr M const with e | c
  · rfl
  rcases processSsqParams th v logscale with e | p
  · rfl
  simp only [ok_bind, pure_eq_ok]
  congr 2
  congr 1
  funext i j
  unfold ssqCwtBody indexedSumBody
  by_cases hg : gamma < ‖Wx i j‖
  · simp only [hg, if_true, hbin]
  · simp only [hg, if_false]

open Classical in
/-- The fused STFT kernel is the two-pass kernel run on the phase that is finite where
`|Wx| > gamma`. -/
theorem fast_eq_onfly_stft (d : Device) (th : ℝ) (M N : ℕ) (out : ℤ → ℕ → ℂ)
    (Wx dWx : ℕ → ℕ → ℂ) (v : List ℝ) (const : ConstArg) (flipud : Bool) (gamma : ℝ) (f : ℕ → ℝ) :
    ssqueezeFast d th M N out Wx dWx v const false flipud gamma (some f) =
      indexedSumOnfly d th M N out Wx
        (fun i j => if gamma < ‖Wx i j‖ then .fin (stftFreq (f i) (Wx i j) (dWx i j)) else .inf)
        v const false flipud := by
  have hbin : binF d = binTP d := by
    funext p omax x
    rcases d with _ | _
    · exact binFused_eq p omax x
    · rfl
  unfold ssqueezeFast indexedSumOnfly fastBody onflyBody processSsqParams
  rcases constArr M const with e | c
  · rfl
  simp only [Bool.false_eq_true, if_false]
  split
  · simp only [ok_bind, pure_eq_ok]
    congr 2
    congr 1
    funext i j
    unfold ssqStftBody indexedSumBody
    by_cases hg : gamma < ‖Wx i j‖
    · simp only [hg, if_true, hbin]
    · simp only [hg, if_false]
  · rfl

/-- **C23 (partial), CWT.** If no cell has modulus exactly `gamma`, computing the phase first and
summing gives the same array as the fused kernel. Missing: cells with `|Wx| = gamma`, where the
code disagrees with itself (`C23_refuted`). -/
theorem C23_cwt_partial (d : Device) (th : ℝ) (M N : ℕ) (out : ℤ → ℕ → ℂ) (Wx dWx : ℕ → ℕ → ℂ)
    (v : List ℝ) (const : ConstArg) (logscale flipud : Bool) (gamma : ℝ)
    (hne : ∀ i j, ‖Wx i j‖ ≠ gamma) :
    indexedSumOnfly d th M N out Wx (phaseCwt gamma Wx dWx) v const logscale flipud =
      ssqueezeFast d th M N out Wx dWx v const logscale flipud gamma none := by
  rw [fast_eq_onfly_cwt]
  congr 1
  funext i j
  unfold phaseCwt
  rcases lt_trichotomy ‖Wx i j‖ gamma with h | h | h
  · rw [if_pos h, if_neg (not_lt.mpr h.le)]
  · exact absurd h (hne i j)
  · rw [if_neg (not_lt.mpr h.le), if_pos h]

/-- **C23 (partial), STFT.** -/
theorem C23_stft_partial (d : Device) (th : ℝ) (M N : ℕ) (out : ℤ → ℕ → ℂ) (Wx dWx : ℕ → ℕ → ℂ)
    (v : List ℝ) (const : ConstArg) (flipud : Bool) (gamma : ℝ) (f : ℕ → ℝ)
    (hne : ∀ i j, ‖Wx i j‖ ≠ gamma) :
    indexedSumOnfly d th M N out Wx (phaseStft gamma f Wx dWx) v const false flipud =
      ssqueezeFast d th M N out Wx dWx v const false flipud gamma (some f) := by
  rw [fast_eq_onfly_stft]
  congr 1
  funext i j
  unfold phaseStft
  rcases lt_trichotomy ‖Wx i j‖ gamma with h | h | h
  · rw [if_pos h, if_neg (not_lt.mpr h.le)]
  · exact absurd h (hne i j)
  · rw [if_neg (not_lt.mpr h.le), if_pos h]

/-- The full statement of **C23** for the CWT kernels. -/
def C23_full : Prop :=
  ∀ (d : Device) (th : ℝ) (M N : ℕ) (Wx dWx : ℕ → ℕ → ℂ) (v : List ℝ) (const : ConstArg)
    (logscale flipud : Bool) (gamma : ℝ) (Tx Tx' : ℤ → ℕ → ℂ), 0 < gamma →
    indexedSumOnfly d th M N (fun _ _ => 0) Wx (phaseCwt gamma Wx dWx) v const logscale flipud =
      .ok Tx →
    ssqueezeFast d th M N (fun _ _ => 0) Wx dWx v const logscale flipud gamma none = .ok Tx' →
    ∀ r < M, ∀ j < N, Tx r j = Tx' r j

/-- **C23 refuted.** A cell with `|Wx| = gamma` is moved by the two-pass computation
(`abs(Wx) < gamma` is false, so its phase is finite) and dropped by the fused one
(`abs(Wx) > gamma` is false). Witness: a 2x1 transform of ones with `gamma = 1`. -/
theorem C23_refuted : ¬ C23_full := by
  intro H
  obtain ⟨Tx, h1⟩ : ∃ Tx, indexedSumOnfly .cpu 1 2 1 (fun _ _ => 0) (fun _ _ => 1)
      (phaseCwt 1 (fun _ _ => 1) (fun _ _ => 0)) [0, 1] (.scalar 1) false false = .ok Tx := by
    unfold indexedSumOnfly onflyBody constArr processSsqParams
    simp only [ok_bind, pure_eq_ok, Bool.false_eq_true, if_false, OfNat.ofNat_ne_one]
    exact ⟨_, rfl⟩
  obtain ⟨Tx', h2⟩ : ∃ Tx', ssqueezeFast .cpu 1 2 1 (fun _ _ => 0) (fun _ _ => 1)
      (fun _ _ => 0) [0, 1] (.scalar 1) false false 1 none = .ok Tx' := by
    unfold ssqueezeFast fastBody constArr processSsqParams
    simp only [ok_bind, pure_eq_ok, Bool.false_eq_true, if_false, OfNat.ofNat_ne_one]
    exact ⟨_, rfl⟩
  have h := fun r hr => H .cpu 1 2 1 (fun _ _ => 1) (fun _ _ => 0) [0, 1] (.scalar 1) false false 1
    Tx Tx' one_pos h1 h2 r hr 0 (by norm_num)
  obtain ⟨c, hc, hs⟩ := C16_two_pass .cpu 1 one_pos 2 1 _ _ _ _ _ _ (Or.inl rfl) Tx h1
  obtain ⟨c', hc', hs'⟩ := C16_fused_cwt .cpu 1 one_pos 2 1 _ _ _ _ _ _ _ (Or.inl rfl) Tx' h2
  have e := hs 0 (by norm_num)
  have e' := hs' 0 (by norm_num)
  rw [sum_congr rfl (fun r hr => h r (mem_range.mp hr)), e'] at e
  have hcc : c = [1, 1] := by
    simp only [constArr] at hc
    simpa using hc.symm
  subst hcc
  simp [phaseCwt, sum_range_succ] at e
  norm_num at e

/-! ## C24: cells below threshold -/

/-- **C24, phase.** A cell below threshold gets phase infinity (CWT and STFT), and only such cells
do. -/
theorem C24_phase (gamma : ℝ) (f : ℕ → ℝ) (Wx dWx : ℕ → ℕ → ℂ) (i j : ℕ) :
    (phaseCwt gamma Wx dWx i j = .inf ↔ ‖Wx i j‖ < gamma) ∧
    (phaseStft gamma f Wx dWx i j = .inf ↔ ‖Wx i j‖ < gamma) := by
  unfold phaseCwt phaseStft
  by_cases h : ‖Wx i j‖ < gamma <;> simp [h]

/-- **C24, two-pass CWT.** Two inputs that agree in every cell except where both are below
threshold have the same squeezed transform. -/
theorem C24_two_pass_cwt (d : Device) (th : ℝ) (M N : ℕ) (out : ℤ → ℕ → ℂ)
    (Wx dWx Wx' dWx' : ℕ → ℕ → ℂ) (v : List ℝ) (const : ConstArg) (logscale flipud : Bool)
    (gamma : ℝ)
    (hag : ∀ i j, (Wx i j = Wx' i j ∧ dWx i j = dWx' i j) ∨
      (‖Wx i j‖ < gamma ∧ ‖Wx' i j‖ < gamma)) :
    indexedSumOnfly d th M N out Wx (phaseCwt gamma Wx dWx) v const logscale flipud =
      indexedSumOnfly d th M N out Wx' (phaseCwt gamma Wx' dWx') v const logscale flipud := by
  have hb : ∀ (bin : ℝ → ℤ) (omax : ℤ) (cst : ℕ → ℝ),
      indexedSumBody (fun (a : ℂ) (b : ℝ) => a * (b : ℂ)) bin omax flipud Wx
        (phaseCwt gamma Wx dWx) cst =
      indexedSumBody (fun (a : ℂ) (b : ℝ) => a * (b : ℂ)) bin omax flipud Wx'
        (phaseCwt gamma Wx' dWx') cst := by
    intro bin omax cst
    funext i j
    unfold indexedSumBody phaseCwt
    rcases hag i j with ⟨h1, h2⟩ | ⟨h1, h2⟩
    · rw [h1, h2]
    · rw [if_pos h1, if_pos h2]
  unfold indexedSumOnfly onflyBody
  simp only [hb]

/-- **C24, two-pass STFT.** -/
theorem C24_two_pass_stft (d : Device) (th : ℝ) (M N : ℕ) (out : ℤ → ℕ → ℂ)
    (Wx dWx Wx' dWx' : ℕ → ℕ → ℂ) (v : List ℝ) (const : ConstArg) (logscale flipud : Bool)
    (gamma : ℝ) (f : ℕ → ℝ)
    (hag : ∀ i j, (Wx i j = Wx' i j ∧ dWx i j = dWx' i j) ∨
      (‖Wx i j‖ < gamma ∧ ‖Wx' i j‖ < gamma)) :
    indexedSumOnfly d th M N out Wx (phaseStft gamma f Wx dWx) v const logscale flipud =
      indexedSumOnfly d th M N out Wx' (phaseStft gamma f Wx' dWx') v const logscale flipud := by
  have hb : ∀ (bin : ℝ → ℤ) (omax : ℤ) (cst : ℕ → ℝ),
      indexedSumBody (fun (a : ℂ) (b : ℝ) => a * (b : ℂ)) bin omax flipud Wx
        (phaseStft gamma f Wx dWx) cst =
      indexedSumBody (fun (a : ℂ) (b : ℝ) => a * (b : ℂ)) bin omax flipud Wx'
        (phaseStft gamma f Wx' dWx') cst := by
    intro bin omax cst
    funext i j
    unfold indexedSumBody phaseStft
    rcases hag i j with ⟨h1, h2⟩ | ⟨h1, h2⟩
    · rw [h1, h2]
    · rw [if_pos h1, if_pos h2]
  unfold indexedSumOnfly onflyBody
  simp only [hb]

/-- **C24, fused kernels** (`Sfs = none`: CWT, `some`: STFT). -/
theorem C24_fused (d : Device) (th : ℝ) (M N : ℕ) (out : ℤ → ℕ → ℂ)
    (Wx dWx Wx' dWx' : ℕ → ℕ → ℂ) (v : List ℝ) (const : ConstArg) (logscale flipud : Bool)
    (gamma : ℝ) (Sfs : Option (ℕ → ℝ))
    (hag : ∀ i j, (Wx i j = Wx' i j ∧ dWx i j = dWx' i j) ∨
      (‖Wx i j‖ < gamma ∧ ‖Wx' i j‖ < gamma)) :
    ssqueezeFast d th M N out Wx dWx v const logscale flipud gamma Sfs =
      ssqueezeFast d th M N out Wx' dWx' v const logscale flipud gamma Sfs := by
  have hc : ∀ (bin : ℝ → ℤ) (omax : ℤ) (cst : ℕ → ℝ),
      ssqCwtBody bin omax flipud gamma Wx dWx cst = ssqCwtBody bin omax flipud gamma Wx' dWx' cst := by
    intro bin omax cst
    funext i j
    unfold ssqCwtBody
    rcases hag i j with ⟨h1, h2⟩ | ⟨h1, h2⟩
    · rw [h1, h2]
    · rw [if_neg (not_lt.mpr h1.le), if_neg (not_lt.mpr h2.le)]
  have hs : ∀ (bin : ℝ → ℤ) (omax : ℤ) (f cst : ℕ → ℝ),
      ssqStftBody bin omax flipud gamma f Wx dWx cst =
        ssqStftBody bin omax flipud gamma f Wx' dWx' cst := by
    intro bin omax f cst
    funext i j
    unfold ssqStftBody
    rcases hag i j with ⟨h1, h2⟩ | ⟨h1, h2⟩
    · rw [h1, h2]
    · rw [if_neg (not_lt.mpr h1.le), if_neg (not_lt.mpr h2.le)]
  unfold ssqueezeFast fastBody
  simp only [hc, hs]

/-! ## C25: linearity in the transform -/

/-- **C25.** For a fixed phase transform, squeezing is linear in `Wx`; in particular squeezing 0 gives
0. Whether a call fails does not depend on `Wx`. -/
theorem C25_linear (d : Device) (th : ℝ) (M N : ℕ) (W1 W2 : ℕ → ℕ → ℂ) (α β : ℂ)
    (w : ℕ → ℕ → Phase) (v : List ℝ) (const : ConstArg) (logscale flipud : Bool)
    (T1 : ℤ → ℕ → ℂ)
    (h1 : indexedSumOnfly d th M N (fun _ _ => 0) W1 w v const logscale flipud = .ok T1) :
    ∃ T2 T, indexedSumOnfly d th M N (fun _ _ => 0) W2 w v const logscale flipud = .ok T2 ∧
      indexedSumOnfly d th M N (fun _ _ => 0) (fun i j => α * W1 i j + β * W2 i j) w v const
        logscale flipud = .ok T ∧
      ∀ r : ℤ, ∀ j < N, T r j = α * T1 r j + β * T2 r j := by
  obtain ⟨c, p, hc, hp, hT1⟩ := onfly_ok h1
  have hex : ∀ W : ℕ → ℕ → ℂ, ∃ T,
      indexedSumOnfly d th M N (fun _ _ => 0) W w v const logscale flipud = .ok T := by
    intro W
    unfold indexedSumOnfly onflyBody
    simp only [hc, hp, ok_bind, pure_eq_ok]
    exact ⟨_, rfl⟩
  obtain ⟨T2, h2⟩ := hex W2
  obtain ⟨T, h⟩ := hex (fun i j => α * W1 i j + β * W2 i j)
  refine ⟨T2, T, h2, h, ?_⟩
  obtain ⟨c2, p2, hc2, hp2, hT2⟩ := onfly_ok h2
  obtain ⟨c3, p3, hc3, hp3, hT⟩ := onfly_ok h
  rw [hc] at hc2 hc3; rw [hp] at hp2 hp3
  simp only [Except.ok.injEq] at hc2 hp2 hc3 hp3
  subst hc2 hp2 hc3 hp3
  intro r j hj
  rw [hT r j hj, hT1 r j hj, hT2 r j hj]
  simp only [zero_add]
  rw [mul_sum, mul_sum, ← sum_add_distrib]
  apply sum_congr rfl
  intro i _
  rcases w i j with _ | x
  · simp
  · simp only
    split <;> ring

theorem C25_zero (d : Device) (th : ℝ) (M N : ℕ)
    (w : ℕ → ℕ → Phase) (v : List ℝ) (const : ConstArg) (logscale flipud : Bool)
    (T : ℤ → ℕ → ℂ)
    (h : indexedSumOnfly d th M N (fun _ _ => 0) (fun _ _ => 0) w v const logscale flipud = .ok T) :
    ∀ r : ℤ, ∀ j < N, T r j = 0 := by
  obtain ⟨c, p, hc, hp, hT⟩ := onfly_ok h
  intro r j hj
  rw [hT r j hj, zero_add]
  apply sum_eq_zero
  intro i _
  rcases w i j with _ | x <;> simp

/-! ## The same statements for the fused kernels -/

open Classical in
/-- **C18, fused kernels.** The fused CWT and STFT kernels move every cell with `|Wx| > gamma` to the
row whose frequency is nearest to that cell's instantaneous frequency, and add exactly
`Wx*const`. -/
theorem C18_fused (d : Device) (th : ℝ) (M N : ℕ) (Wx dWx : ℕ → ℕ → ℂ) (v : List ℝ)
    (a s : ℝ) (hv : Spec.Uniform v a s) (hlen : v.length = M) (h2 : 2 ≤ M) (hs : eps64 ≤ s)
    (const : ConstArg) (flipud : Bool) (gamma : ℝ) (Sfs : Option (ℕ → ℝ)) (Tx : ℤ → ℕ → ℂ)
    (h : ssqueezeFast d th M N (fun _ _ => 0) Wx dWx v const false flipud gamma Sfs = .ok Tx) :
    ∃ c, constArr M const = .ok c ∧ ∃ row : ℝ → ℕ,
      (∀ x, Spec.Nearest v x (row x)) ∧
      ∀ r < M, ∀ j < N, Tx r j = ∑ i ∈ range M,
        if gamma < ‖Wx i j‖ ∧ Spec.flip flipud M (row (match Sfs with
            | none => cwtFreq (Wx i j) (dWx i j)
            | some f => stftFreq (f i) (Wx i j) (dWx i j))) = r
        then Wx i j * ((c.getD i 0 : ℝ) : ℂ) else 0 := by
  rcases Sfs with _ | f
  · rw [fast_eq_onfly_cwt] at h
    obtain ⟨c, hc, row, h1, _, h3⟩ := C18_lin d th M N Wx _ v a s hv hlen h2 hs const flipud Tx h
    refine ⟨c, hc, row, h1, fun r hr j hj => ?_⟩
    rw [h3 r hr j hj]
    unfold Spec.squeezed
    apply sum_congr rfl
    intro i _
    by_cases hg : gamma < ‖Wx i j‖ <;> simp [hg]
  · rw [fast_eq_onfly_stft] at h
    obtain ⟨c, hc, row, h1, _, h3⟩ := C18_lin d th M N Wx _ v a s hv hlen h2 hs const flipud Tx h
    refine ⟨c, hc, row, h1, fun r hr j hj => ?_⟩
    rw [h3 r hr j hj]
    unfold Spec.squeezed
    apply sum_congr rfl
    intro i _
    by_cases hg : gamma < ‖Wx i j‖ <;> simp [hg]

theorem cwtFreq_nonneg (W dW : ℂ) : 0 ≤ cwtFreq W dW := abs_nonneg _
theorem stftFreq_nonneg (f : ℝ) (W dW : ℂ) : 0 ≤ stftFreq f W dW := abs_nonneg _

open Classical in
/-- **C19, fused CWT kernel.** -/
theorem C19_fused (d : Device) (th : ℝ) (M N : ℕ) (Wx dWx : ℕ → ℕ → ℂ) (v : List ℝ)
    (a s : ℝ) (hv : Spec.Geometric v a s) (hlen : v.length = M) (h3 : 3 ≤ M) (hs : eps64 ≤ s)
    (const : ConstArg) (flipud : Bool) (gamma : ℝ) (Tx : ℤ → ℕ → ℂ)
    (h : ssqueezeFast d th M N (fun _ _ => 0) Wx dWx v const true flipud gamma none = .ok Tx) :
    ∃ c, constArr M const = .ok c ∧ ∃ row : ℝ → ℕ,
      (∀ x, 0 < x → Spec.NearestLog v x (row x)) ∧ row 0 = 0 ∧
      ∀ r < M, ∀ j < N, Tx r j = ∑ i ∈ range M,
        if gamma < ‖Wx i j‖ ∧ Spec.flip flipud M (row (cwtFreq (Wx i j) (dWx i j))) = r
        then Wx i j * ((c.getD i 0 : ℝ) : ℂ) else 0 := by
  rw [fast_eq_onfly_cwt] at h
  obtain ⟨c, hc, row, h1, h0, _, h4⟩ := C19_log d th M N Wx _ v a s hv hlen h3 hs const flipud Tx
    (by
      intro i _ j _ x hx
      split at hx
      · simp only [Phase.fin.injEq] at hx; rw [← hx]; exact cwtFreq_nonneg _ _
      · simp at hx) h
  refine ⟨c, hc, row, h1, h0, fun r hr j hj => ?_⟩
  rw [h4 r hr j hj]
  unfold Spec.squeezed
  apply sum_congr rfl
  intro i _
  by_cases hg : gamma < ‖Wx i j‖ <;> simp [hg]

open Classical in
/-- **C20, fused CWT kernel.** -/
theorem C20_fused (d : Device) (th : ℝ) (hth : 0 < th) (M N : ℕ) (Wx dWx : ℕ → ℕ → ℂ)
    (v : List ℝ) (q : ℕ) (a d0 d1 : ℝ) (hv : Spec.TwoSegment v q a d0 d1)
    (hlen : v.length = M) (hd0 : eps64 ≤ d0) (hd1 : eps64 ≤ d1) (hne : d0 ≠ d1)
    (const : ConstArg) (flipud : Bool) (gamma : ℝ) (Tx : ℤ → ℕ → ℂ)
    (h : ssqueezeFast d th M N (fun _ _ => 0) Wx dWx v const true flipud gamma none = .ok Tx) :
    ∃ c, constArr M const = .ok c ∧ ∃ row : ℝ → ℕ,
      (∀ x, 0 < x → Spec.NearestLog v x (row x)) ∧ row 0 = 0 ∧
      (∀ x y, 0 ≤ x → x ≤ y → row x ≤ row y) ∧
      ∀ r < M, ∀ j < N, Tx r j = ∑ i ∈ range M,
        if gamma < ‖Wx i j‖ ∧ Spec.flip flipud M (row (cwtFreq (Wx i j) (dWx i j))) = r
        then Wx i j * ((c.getD i 0 : ℝ) : ℂ) else 0 := by
  rw [fast_eq_onfly_cwt] at h
  obtain ⟨c, hc, row, h1, h0, hm, h4⟩ := C20_piecewise d th hth M N Wx _ v q a d0 d1 hv hlen hd0 hd1
    hne const flipud Tx
    (by
      intro i _ j _ x hx
      split at hx
      · simp only [Phase.fin.injEq] at hx; rw [← hx]; exact cwtFreq_nonneg _ _
      · simp at hx) h
  refine ⟨c, hc, row, h1, h0, hm, fun r hr j hj => ?_⟩
  rw [h4 r hr j hj]
  unfold Spec.squeezed
  apply sum_congr rfl
  intro i _
  by_cases hg : gamma < ‖Wx i j‖ <;> simp [hg]

/-- **C22, fused kernels.** -/
theorem C22_fused (d : Device) (th : ℝ) (M N : ℕ) (Wx dWx : ℕ → ℕ → ℂ)
    (v : List ℝ) (const : ConstArg) (logscale : Bool) (gamma : ℝ) (Sfs : Option (ℕ → ℝ))
    (hls : Sfs.isSome → logscale = false) (Tx : ℤ → ℕ → ℂ)
    (h : ssqueezeFast d th M N (fun _ _ => 0) Wx dWx v const logscale false gamma Sfs = .ok Tx) :
    ∃ Tx', ssqueezeFast d th M N (fun _ _ => 0) Wx dWx v const logscale true gamma Sfs = .ok Tx' ∧
      ∀ r : ℤ, ∀ j < N, Tx' r j = Tx ((M : ℤ) - 1 - r) j := by
  rcases Sfs with _ | f
  · rw [fast_eq_onfly_cwt] at h ⊢
    exact C22_two_pass d th M N Wx _ v const logscale Tx h
  · have : logscale = false := hls rfl
    subst this
    rw [fast_eq_onfly_stft] at h ⊢
    exact C22_two_pass d th M N Wx _ v const false Tx h

end Ssq
