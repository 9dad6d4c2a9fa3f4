import Verif.Model.HigherOrder
import Verif.Props.CwtBatch

/-!
# Higher-order CWTs (C97)
-/
namespace Ssq

/-! ## Shapes and means -/

/-- All transforms of one signal with the same padding and number of scales have the same shape. -/
theorem cwt_shape (x : List ℝ) (hx : 0 < x.length) (t : Option PadType) (rp : Bool) :
    ∃ c : ℕ, ∀ (a : CwtArgs), a.padtype = t.map padName → a.rpadded = rp →
      ∀ W s dW, cwt x a = .ok (W, s, dW) →
        W.length = s.length ∧ dW.length = s.length ∧ (∀ r ∈ W, r.length = c) ∧ ∀ r ∈ dW, r.length = c := by
  obtain ⟨xp, n1, h1, -, h3⟩ := cwtPad_ok t x hx
  refine ⟨if rp = false ∧ t.isSome then x.length else xp.length, fun a ha hrp W s dW h => ?_⟩
  obtain ⟨r, p, sc, -, -, hp, -, rfl, hW⟩ := (cwt_ok_iff _ _ _ _ _).1 h
  rw [ha, h1] at hp
  simp only [Except.ok.injEq] at hp
  subst hp
  rw [cwtRun_eq a _ _ _ _ _ h3] at hW
  simp only [Prod.mk.injEq] at hW
  have hcols : a.cols x.length xp.length =
      (if rp = false ∧ t.isSome then x.length else xp.length) := by
    unfold CwtArgs.cols CwtArgs.trimmed; rw [ha, hrp]
    cases rp <;> cases t <;> simp
  refine ⟨by rw [← hW.1]; simp [psihRows_length], by rw [← hW.2]; simp [psihRows_length], ?_, ?_⟩
  · intro q hq
    rw [← hW.1, List.mem_iff_getElem] at hq
    obtain ⟨i, hi, rfl⟩ := hq
    simp [hcols]
  · intro q hq
    rw [← hW.2, List.mem_iff_getElem] at hq
    obtain ⟨i, hi, rfl⟩ := hq
    simp [hcols]

/-- `A` has `n` rows of `c` entries. -/
def Shaped (n c : ℕ) (A : List (List ℂ)) : Prop := A.length = n ∧ ∀ r ∈ A, r.length = c

theorem Shaped.row {n c : ℕ} {A : List (List ℂ)} (h : Shaped n c A) {i : ℕ} (hi : i < n) :
    (A.getD i []).length = c := by
  rw [List.getD_eq_getElem _ _ (by rw [h.1]; exact hi)]
  exact h.2 _ (List.getElem_mem _)

theorem ent_addMat {n c : ℕ} {A B : List (List ℂ)} (hA : Shaped n c A) (hB : Shaped n c B) {i j : ℕ}
    (hi : i < n) (hj : j < c) : ent (addMat A B) i j = ent A i j + ent B i j := by
  unfold ent addMat
  rw [zipWith_getD _ A B i [] [] [] (by rw [hA.1]; exact hi) (by rw [hB.1]; exact hi),
    zipWith_getD _ _ _ j 0 0 0 (by rw [hA.row hi]; exact hj) (by rw [hB.row hi]; exact hj)]

theorem shaped_addMat {n c : ℕ} {A B : List (List ℂ)} (hA : Shaped n c A) (hB : Shaped n c B) :
    Shaped n c (addMat A B) := by
  refine ⟨by simp [addMat, hA.1, hB.1], fun r hr => ?_⟩
  unfold addMat at hr
  rw [List.mem_iff_getElem] at hr
  obtain ⟨i, hi, rfl⟩ := hr
  simp only [List.length_zipWith, hA.1, hB.1, min_self] at hi
  rw [List.getElem_zipWith, List.length_zipWith, hA.2 _ (List.getElem_mem _), hB.2 _ (List.getElem_mem _),
    min_self]

theorem foldl_addMat {n c : ℕ} : ∀ (l : List (List (List ℂ))) (A : List (List ℂ)), Shaped n c A →
    (∀ B ∈ l, Shaped n c B) → Shaped n c (l.foldl addMat A) ∧ ∀ i < n, ∀ j < c,
      ent (l.foldl addMat A) i j = ent A i j + (l.map fun B => ent B i j).sum
  | [], A, hA, _ => ⟨hA, fun i _ j _ => by simp⟩
  | B :: l, A, hA, hl => by
    have hB := hl B (by simp)
    obtain ⟨h1, h2⟩ := foldl_addMat l (addMat A B) (shaped_addMat hA hB) (fun C hC => hl C (by simp [hC]))
    refine ⟨h1, fun i hi j hj => ?_⟩
    rw [List.foldl_cons, h2 i hi j hj, ent_addMat hA hB hi hj]
    simp only [List.map_cons, List.sum_cons]
    ring

/-- The mean of arrays of one shape is entrywise. -/
theorem meanMat_spec {n c : ℕ} (l : List (List (List ℂ))) (hl : l ≠ []) (h : ∀ B ∈ l, Shaped n c B) :
    Shaped n c (meanMat l) ∧ ∀ i < n, ∀ j < c,
      ent (meanMat l) i j = (l.map fun B => ent B i j).sum / (l.length : ℂ) := by
  cases l with
  | nil => exact absurd rfl hl
  | cons A l =>
    obtain ⟨h1, h2⟩ := foldl_addMat l A (h A (by simp)) (fun B hB => h B (by simp [hB]))
    refine ⟨⟨by simp [meanMat, h1.1], fun r hr => ?_⟩, fun i hi j hj => ?_⟩
    · simp only [meanMat, List.mem_map] at hr
      obtain ⟨r', hr', rfl⟩ := hr
      simp [h1.2 _ hr']
    · have hi' : i < (l.foldl addMat A).length := by rw [h1.1]; exact hi
      have hj' : j < ((l.foldl addMat A)[i]).length := by
        rw [h1.2 _ (List.getElem_mem _)]; exact hj
      have := h2 i hi j hj
      unfold ent at this ⊢
      rw [List.getD_eq_getElem _ _ hi', List.getD_eq_getElem _ _ hj'] at this
      have e1 : ((meanMat (A :: l)).getD i []) = (l.foldl addMat A)[i].map
          fun z : ℂ => z / ((l.length + 1 : ℕ) : ℂ) := by
        rw [List.getD_eq_getElem _ _ (by simpa [meanMat] using hi')]
        simp [meanMat]
      rw [e1, List.getD_eq_getElem _ _ (by simpa using hj')]
      simp only [List.getElem_map, this, List.map_cons, List.sum_cons, List.length_cons, ent]

/-! ## Unfolding -/

/-- The wavelet used for order `k`. -/
def ordWav (h : HoArgs) (k : ℕ) : CwtWavelet :=
  ⟨(h.fam k).1, (h.fam k).2, if k = 0 then some h.normL1 else none⟩

theorem hoWavelet_ok {h : HoArgs} {k : ℤ} {w : CwtWavelet} (hw : hoWavelet h k = .ok w) :
    0 ≤ k ∧ w = ordWav h k.toNat := by
  unfold hoWavelet at hw
  split at hw
  · simp at hw
  · rename_i hk
    simp only [Except.ok.injEq] at hw
    refine ⟨by omega, ?_⟩
    rw [← hw]
    unfold ordWav
    congr 1
    by_cases h0 : k = 0
    · simp [h0]
    · rw [if_neg h0, if_neg (by omega)]

/-- What a successful call did. -/
theorem ho_ok {R : Type} {call : CwtWavelet → ScalesArg → Py (R × R)} {mean : List R → R} {len : ℕ}
    {h : HoArgs} {isSeq : Bool} {ks : List ℤ} {M : HoRes R} {s : ScalesArg} {D : HoRes R}
    (hr : cwtHigherOrder call mean len h isSeq ks = .ok (M, s, D)) :
    h.isGmw = true ∧ (∀ k ∈ ks, 0 ≤ k) ∧ hoScales h len = .ok s ∧ ∃ out : List (R × R),
      List.Forall₂ (fun (k : ℤ) o => call (ordWav h k.toNat) s = .ok o) ks out ∧
      hoCombine mean (decide (hoAverage h.average ks.length = some true ∨
        (hoAverage h.average ks.length = none ∧ isSeq = true))) (out.map Prod.fst) = .ok M ∧
      hoCombine mean (decide (hoAverage h.average ks.length = some true ∨
        (hoAverage h.average ks.length = none ∧ isSeq = true))) (out.map Prod.snd) = .ok D := by
  unfold cwtHigherOrder at hr
  obtain ⟨ws, hws, hr⟩ := bind_ok hr
  obtain ⟨s', hs, hr⟩ := bind_ok hr
  obtain ⟨out, ho, hr⟩ := bind_ok hr
  obtain ⟨W, hW, hr⟩ := bind_ok hr
  obtain ⟨dW, hdW, hr⟩ := bind_ok hr
  simp only [Except.ok.injEq, Prod.mk.injEq] at hr
  obtain ⟨rfl, rfl, rfl⟩ := hr
  unfold hoWavelets at hws
  split at hws
  · rename_i hg
    have h1 := (mapM_ok _ _ _).1 hws
    have h2 := (mapM_ok _ _ _).1 ho
    refine ⟨hg, ?_, hs, out, ?_, hW, hdW⟩
    · clear * - h1
      intro k hk
      induction h1 with
      | nil => simp at hk
      | cons h _ ih =>
        simp only [List.mem_cons] at hk
        rcases hk with rfl | hk
        · exact (hoWavelet_ok h).1
        · exact ih hk
    · clear * - h1 h2
      induction h1 generalizing out with
      | nil => cases h2; exact .nil
      | cons h _ ih =>
        cases h2 with
        | cons g1 g2 =>
          refine .cons ?_ (ih _ g2)
          rw [← (hoWavelet_ok h).2]; exact g1
  · simp at hws

/-- The single-signal call, as pairs. -/
theorem call_ok {x : List ℝ} {a : CwtArgs} {o : List (List ℂ) × List (List ℂ)}
    (h : (do let r ← cwt x a; .ok (r.1, r.2.2) : Py _) = .ok o) : ∃ s, cwt x a = .ok (o.1, s, o.2) := by
  obtain ⟨r, hr, h⟩ := bind_ok h
  simp only [Except.ok.injEq] at h
  subst h
  exact ⟨r.2.1, hr⟩

namespace Spec

/-- The arguments of an ordinary `cwt` call with the wavelet of order `k` and the scales `s`. -/
def orderArgs (h : HoArgs) (k : ℕ) (s : ScalesArg) : CwtArgs :=
  { h.a with wavelet := ⟨(h.fam k).1, (h.fam k).2, none⟩, scales := s }

/-- The transform and derivative of an ordinary `cwt` call (empty if it fails). -/
noncomputable def orderCwt (x : List ℝ) (h : HoArgs) (k : ℕ) (s : ScalesArg) :
    List (List ℂ) × List (List ℂ) :=
  match cwt x (orderArgs h k s) with
  | .ok r => (r.1, r.2.2)
  | .error _ => ([], [])

end Spec

theorem processScales_arr_fst {shape : List ℕ} {dt : FDtype} {v : List ℝ} {N : ℕ} {wv : Option ScaleWavelet}
    {nv : Option ℚ} {u : Bool} {d : ℕ} {r : List ℝ × ScaleType × ℕ × Nv}
    (h : processScales (.arr shape dt v) N wv nv u d = .ok r) : r.1 = v := by
  unfold processScales at h
  dsimp only at h
  split at h
  · simp at h
  · obtain ⟨⟨st, nvI⟩, -, h⟩ := bind_ok h
    split at h
    · split at h
      · simp at h
      · obtain ⟨m, -, h⟩ := bind_ok h
        simp only [pure_eq_ok, Except.ok.injEq] at h
        rw [← h]
    · simp only [pure_eq_ok, Except.ok.injEq] at h
      rw [← h]
    · split at h
      · simp only [pure_eq_ok, Except.ok.injEq] at h
        rw [← h]
      · obtain ⟨m, -, h⟩ := bind_ok h
        simp only [pure_eq_ok, Except.ok.injEq] at h
        rw [← h]

theorem call_spec {x : List ℝ} {h : HoArgs} {k : ℕ} {s : ScalesArg} {o : List (List ℂ) × List (List ℂ)}
    (hc : (do let r ← cwt x (hoCallArgs h (ordWav h k) s); .ok (r.1, r.2.2) : Py _) = .ok o) :
    (∃ sc, cwt x (Spec.orderArgs h k s) = .ok (o.1, sc, o.2)) ∧ Spec.orderCwt x h k s = o ∧
    (k = 0 → h.normL1 = h.a.l1Norm) := by
  obtain ⟨sc, hsc⟩ := call_ok hc
  have e : cwt x (Spec.orderArgs h k s) = .ok (o.1, sc, o.2) := by
    obtain ⟨r, p, sc', g1, g2, g3, g4, g5, g6⟩ := (cwt_ok_iff _ _ _ _ _).1 hsc
    exact (cwt_ok_iff _ _ _ _ _).2 ⟨r, p, sc', g1, rfl, g3, g4, g5, g6⟩
  refine ⟨⟨sc, e⟩, ?_, ?_⟩
  · unfold Spec.orderCwt; rw [e]
  · rintro rfl
    obtain ⟨r, p, sc', g1, g2, g3, g4, g5, g6⟩ := (cwt_ok_iff _ _ _ _ _).1 hsc
    simp only [hoCallArgs, ordWav, if_true, checkGmw] at g2
    split at g2
    · assumption
    · simp at g2

/-- A successful call: the array of scales, and the per-order transforms. -/
theorem ho_calls {x : List ℝ} {h : HoArgs} {isSeq : Bool} {ks : List ℤ}
    {M : HoRes (List (List ℂ))} {s : ScalesArg} {D : HoRes (List (List ℂ))}
    (hr : cwtHigherOrder (fun w s => do let r ← cwt x (hoCallArgs h w s); .ok (r.1, r.2.2)) meanMat
      x.length h isSeq ks = .ok (M, s, D)) :
    h.isGmw = true ∧ (∀ k ∈ ks, 0 ≤ k) ∧ hoScales h x.length = .ok s ∧
    (∀ k ∈ ks, ∃ sc, cwt x (Spec.orderArgs h k.toNat s) =
      .ok ((Spec.orderCwt x h k.toNat s).1, sc, (Spec.orderCwt x h k.toNat s).2)) ∧
    (0 ∈ ks → h.normL1 = h.a.l1Norm) ∧
      hoCombine meanMat (decide (hoAverage h.average ks.length = some true ∨
        (hoAverage h.average ks.length = none ∧ isSeq = true)))
        (ks.map fun k => (Spec.orderCwt x h k.toNat s).1) = .ok M ∧
      hoCombine meanMat (decide (hoAverage h.average ks.length = some true ∨
        (hoAverage h.average ks.length = none ∧ isSeq = true)))
        (ks.map fun k => (Spec.orderCwt x h k.toNat s).2) = .ok D := by
  obtain ⟨h1, h2, h3, out, h4, h5, h6⟩ := ho_ok hr
  have e : out = ks.map fun k => Spec.orderCwt x h k.toNat s := by
    clear h5 h6 h2 hr
    induction h4 with
    | nil => rfl
    | cons g _ ih => rw [List.map_cons, (call_spec g).2.1, ← ih]
  have e2 : ∀ k ∈ ks, ∃ o, (do let r ← cwt x (hoCallArgs h (ordWav h k.toNat) s); .ok (r.1, r.2.2) : Py _)
      = .ok o := by
    clear h5 h6 h2 hr e
    intro k hk
    induction h4 with
    | nil => simp at hk
    | cons g _ ih =>
      simp only [List.mem_cons] at hk
      rcases hk with rfl | hk
      · exact ⟨_, g⟩
      · exact ih hk
  refine ⟨h1, h2, h3, fun k hk => ?_, fun h0 => ?_, ?_, ?_⟩
  · obtain ⟨o, ho⟩ := e2 k hk
    obtain ⟨⟨sc, hsc⟩, ho', -⟩ := call_spec ho
    exact ⟨sc, by rw [hsc, ho']⟩
  · obtain ⟨o, ho⟩ := e2 0 h0
    exact (call_spec ho).2.2 rfl
  · rw [e, List.map_map] at h5; exact h5
  · rw [e, List.map_map] at h6; exact h6

theorem cwtOrder_seq {x : List ℝ} {h : HoArgs} {ks : List ℤ} (hk : h.order = .seq ks) :
    cwtOrder x h = cwtHigherOrder (fun w s => do let r ← cwt x (hoCallArgs h w s); .ok (r.1, r.2.2)) meanMat
      x.length h true ks := by
  unfold cwtOrder; rw [hk]

theorem cwtOrder_int {x : List ℝ} {h : HoArgs} {k : ℤ} (hk : h.order = .int k) (h0 : 0 < k) :
    cwtOrder x h = cwtHigherOrder (fun w s => do let r ← cwt x (hoCallArgs h w s); .ok (r.1, r.2.2)) meanMat
      x.length h false [k] := by
  unfold cwtOrder; rw [hk]; dsimp only; rw [if_pos h0]

theorem cwt_scales_arr {x : List ℝ} {a : CwtArgs} {W dW : List (List ℂ)} {sc : List ℝ}
    (hs : ∀ str, a.scales ≠ .str str) (h : cwt x a = .ok (W, sc, dW)) :
    ∃ shape dt, a.scales = .arr shape dt sc := by
  obtain ⟨r, p, sc', -, -, -, g4, rfl, -⟩ := (cwt_ok_iff _ _ _ _ _).1 h
  cases ha : a.scales with
  | str s => exact absurd ha (hs s)
  | other => rw [ha] at g4; simp [processScales] at g4
  | arr shape dt v =>
    rw [ha] at g4
    rw [processScales_arr_fst g4]
    exact ⟨_, _, rfl⟩

theorem hoScales_not_str {h : HoArgs} {n : ℕ} {s : ScalesArg} (hs : hoScales h n = .ok s) :
    ∀ str, s ≠ .str str := by
  rintro str rfl
  unfold hoScales at hs
  split at hs
  · obtain ⟨r, -, hs⟩ := bind_ok hs
    simp at hs
  · rename_i hne
    simp only [Except.ok.injEq] at hs
    exact hne _ hs

/-! ## C97 -/

/-- **C97, averaging.** With a tuple, list or range of orders (and `average` not `False`), the result is one
array and one derivative: the entrywise arithmetic means of what ordinary `cwt` calls with the wavelets of
those orders return at the same scales. -/
theorem C97_average (x : List ℝ) (hx : 0 < x.length) (h : HoArgs) (t : Option PadType)
    (ht : h.a.padtype = t.map padName) (ks : List ℤ) (hks : h.order = .seq ks)
    (havg : h.average ≠ some false) (M : HoRes (List (List ℂ))) (s : ScalesArg)
    (D : HoRes (List (List ℂ))) (hr : cwtOrder x h = .ok (M, s, D)) :
    ∃ (A dA : List (List ℂ)) (shape : List ℕ) (dt : FDtype) (sc : List ℝ) (c : ℕ)
      (Ws dWs : ℕ → List (List ℂ)),
      M = .one A ∧ D = .one dA ∧ s = .arr shape dt sc ∧ ks ≠ [] ∧
      (∀ k ∈ ks, 0 ≤ k ∧ cwt x (Spec.orderArgs h k.toNat s) = .ok (Ws k.toNat, sc, dWs k.toNat)) ∧
      A.length = sc.length ∧ (∀ r ∈ A, r.length = c) ∧ dA.length = sc.length ∧ (∀ r ∈ dA, r.length = c) ∧
      (∀ k ∈ ks, ∀ r ∈ Ws k.toNat, r.length = c) ∧
      ∀ i < sc.length, ∀ j < c,
        ent A i j = (ks.map fun k => ent (Ws k.toNat) i j).sum / (ks.length : ℂ) ∧
        ent dA i j = (ks.map fun k => ent (dWs k.toNat) i j).sum / (ks.length : ℂ) := by
  rw [cwtOrder_seq hks] at hr
  obtain ⟨h1, h2, h3, h4, -, h5, h6⟩ := ho_calls hr
  have hne : ks ≠ [] := by
    rintro rfl
    have : hoAverage h.average ([] : List ℤ).length = h.average := by simp [hoAverage]
    rw [this] at h5
    cases hav : h.average with
    | none => rw [hav] at h5; simp [hoCombine] at h5
    | some b =>
      cases b with
      | true => rw [hav] at h5; simp [hoCombine] at h5
      | false => exact havg hav
  obtain ⟨k0, hk0⟩ : ∃ k0, k0 ∈ ks := List.exists_mem_of_ne_nil _ hne
  have hnstr := hoScales_not_str h3
  obtain ⟨sc, hsc⟩ := h4 k0 hk0
  obtain ⟨shape, dt, hs⟩ := cwt_scales_arr (a := Spec.orderArgs h k0.toNat s) hnstr hsc
  have hs' : s = .arr shape dt sc := hs
  have h4' : ∀ k ∈ ks, cwt x (Spec.orderArgs h k.toNat s) =
      .ok ((Spec.orderCwt x h k.toNat s).1, sc, (Spec.orderCwt x h k.toNat s).2) := by
    intro k hk
    obtain ⟨sc2, hsc2⟩ := h4 k hk
    obtain ⟨shape2, dt2, e⟩ := cwt_scales_arr (a := Spec.orderArgs h k.toNat s) hnstr hsc2
    have e' : s = .arr shape2 dt2 sc2 := e
    rw [hs'] at e'
    simp only [ScalesArg.arr.injEq] at e'
    rw [hsc2, e'.2.2]
  obtain ⟨c, hc⟩ := cwt_shape x hx t h.a.rpadded
  have hsh : ∀ k ∈ ks, Shaped sc.length c (Spec.orderCwt x h k.toNat s).1 ∧
      Shaped sc.length c (Spec.orderCwt x h k.toNat s).2 := by
    intro k hk
    obtain ⟨g1, g2, g3, g4⟩ := hc (Spec.orderArgs h k.toNat s) ht rfl _ _ _ (h4' k hk)
    exact ⟨⟨g1, g3⟩, g2, g4⟩
  have hcomb : ∀ (f : ℤ → List (List ℂ)) (Z : HoRes (List (List ℂ))),
      (∀ k ∈ ks, Shaped sc.length c (f k)) →
      hoCombine meanMat (decide (hoAverage h.average ks.length = some true ∨
        (hoAverage h.average ks.length = none ∧ (true : Bool) = true))) (ks.map f) = .ok Z →
      ∃ A, Z = .one A ∧ Shaped sc.length c A ∧ ∀ i < sc.length, ∀ j < c,
        ent A i j = (ks.map fun k => ent (f k) i j).sum / (ks.length : ℂ) := by
    intro f Z hf hZ
    have hm := meanMat_spec (ks.map f) (by simpa using hne) (by simpa using hf)
    unfold hoCombine at hZ
    split at hZ
    · split at hZ
      · simp at hZ
      · rename_i r l he
        rw [← he] at hZ
        simp only [Except.ok.injEq] at hZ
        exact ⟨_, hZ.symm, hm.1, fun i hi j hj => by rw [hm.2 i hi j hj]; simp [Function.comp_def]⟩
    · rename_i hn
      have : ks.length = 1 := by
        by_contra hl
        apply hn
        unfold hoAverage
        rw [if_neg (by tauto)]
        cases hav : h.average with
        | none => simp
        | some b => cases b with
          | true => simp
          | false => exact absurd hav havg
      obtain ⟨k, rfl⟩ := List.length_eq_one_iff.1 this
      simp only [List.map_cons, List.map_nil, Except.ok.injEq] at hZ
      exact ⟨_, hZ.symm, hf k (by simp), fun i hi j hj => by simp⟩
  obtain ⟨A, rfl, hA1, hA2⟩ := hcomb _ _ (fun k hk => (hsh k hk).1) h5
  obtain ⟨dA, rfl, hB1, hB2⟩ := hcomb _ _ (fun k hk => (hsh k hk).2) h6
  exact ⟨A, dA, shape, dt, sc, c, fun k => (Spec.orderCwt x h k s).1, fun k => (Spec.orderCwt x h k s).2,
    rfl, rfl, hs', hne, fun k hk => ⟨h2 k hk, h4' k hk⟩, hA1.1, hA1.2, hB1.1, hB1.2,
    fun k hk => (hsh k hk).1.2, fun i hi j hj => ⟨hA2 i hi j hj, hB2 i hi j hj⟩⟩

/-- **C97, lists.** With `average=False` and a tuple, list or range of orders other than one, the
transforms of all orders are returned as lists, in the order given. -/
theorem C97_list (x : List ℝ) (h : HoArgs) (ks : List ℤ) (hks : h.order = .seq ks)
    (hl : ks.length ≠ 1) (havg : h.average = some false) (M : HoRes (List (List ℂ))) (s : ScalesArg)
    (D : HoRes (List (List ℂ))) (hr : cwtOrder x h = .ok (M, s, D)) :
    ∃ (Ws dWs : ℕ → List (List ℂ)), M = .many (ks.map fun k => Ws k.toNat) ∧
      D = .many (ks.map fun k => dWs k.toNat) ∧
      ∀ k ∈ ks, 0 ≤ k ∧ ∃ sc, cwt x (Spec.orderArgs h k.toNat s) = .ok (Ws k.toNat, sc, dWs k.toNat) := by
  rw [cwtOrder_seq hks] at hr
  obtain ⟨h1, h2, h3, h4, -, h5, h6⟩ := ho_calls hr
  have hn : ¬ (hoAverage h.average ks.length = some true ∨
        (hoAverage h.average ks.length = none ∧ (true : Bool) = true)) := by
    simp [hoAverage, havg]
  have hcomb : ∀ (f : ℤ → List (List ℂ)) (Z : HoRes (List (List ℂ))),
      hoCombine meanMat (decide (hoAverage h.average ks.length = some true ∨
        (hoAverage h.average ks.length = none ∧ (true : Bool) = true))) (ks.map f) = .ok Z →
      Z = .many (ks.map f) := by
    intro f Z hZ
    unfold hoCombine at hZ
    rw [decide_eq_false hn] at hZ
    simp only [Bool.false_eq_true, if_false] at hZ
    split at hZ
    · rename_i r he
      have := congrArg List.length he
      simp only [List.length_map, List.length_cons, List.length_nil, zero_add] at this
      exact absurd this hl
    · simp only [Except.ok.injEq] at hZ; exact hZ.symm
  exact ⟨fun k => (Spec.orderCwt x h k s).1, fun k => (Spec.orderCwt x h k s).2, hcomb _ _ h5, hcomb _ _ h6,
    fun k hk => ⟨h2 k hk, h4 k hk⟩⟩

/-- **C97, one order.** With a positive integer order, whatever `average` is, the result is that of an
ordinary `cwt` call with the wavelet of that order. -/
theorem C97_single (x : List ℝ) (h : HoArgs) (k : ℕ) (hk : 0 < k) (hks : h.order = .int k)
    (M : HoRes (List (List ℂ))) (s : ScalesArg) (D : HoRes (List (List ℂ)))
    (hr : cwtOrder x h = .ok (M, s, D)) :
    ∃ W sc dW, M = .one W ∧ D = .one dW ∧ cwt x (Spec.orderArgs h k s) = .ok (W, sc, dW) := by
  rw [cwtOrder_int hks (by omega)] at hr
  obtain ⟨h1, h2, h3, h4, -, h5, h6⟩ := ho_calls hr
  have hn : ¬ (hoAverage h.average ([(k : ℤ)] : List ℤ).length = some true ∨
        (hoAverage h.average ([(k : ℤ)] : List ℤ).length = none ∧ (false : Bool) = true)) := by
    simp only [hoAverage, List.length_cons, List.length_nil, zero_add, true_and, Bool.false_eq_true, and_false,
      or_false]
    split <;> simp_all
  rw [decide_eq_false hn] at h5 h6
  simp only [hoCombine, Bool.false_eq_true, if_false, List.map_cons, List.map_nil, Except.ok.injEq] at h5 h6
  obtain ⟨sc, hsc⟩ := h4 k (by simp)
  exact ⟨_, sc, _, h5.symm, h6.symm, by simpa using hsc⟩

/-- **C97, scales.** For a 1D signal the scales used for every order, and returned, are the given array,
or the named scales of the *order-0* wavelet for the signal's length. -/
theorem C97_scales (x : List ℝ) (h : HoArgs)
    (hord : (∃ ks, h.order = .seq ks) ∨ ∃ k : ℕ, 0 < k ∧ h.order = .int k)
    (M : HoRes (List (List ℂ))) (s : ScalesArg) (D : HoRes (List (List ℂ)))
    (hr : cwtOrder x h = .ok (M, s, D)) :
    ((∀ name, h.a.scales ≠ .str name) → s = h.a.scales) ∧
    ∀ name, h.a.scales = .str name → ∃ r, processScales (.str name) x.length (some (h.fam 0).2) h.a.nv true
      h.a.downsample = .ok r ∧ s = .arr [r.1.length, 1] h.dtype r.1 := by
  have h3 : hoScales h x.length = .ok s := by
    rcases hord with ⟨ks, hks⟩ | ⟨k, hk, hks⟩
    · rw [cwtOrder_seq hks] at hr
      exact (ho_calls hr).2.2.1
    · rw [cwtOrder_int hks (by omega)] at hr
      exact (ho_calls hr).2.2.1
  unfold hoScales at h3
  constructor
  · intro hne
    split at h3
    · rename_i n hn; exact absurd hn (hne n)
    · simp only [Except.ok.injEq] at h3; exact h3.symm
  · intro name hn
    rw [hn] at h3
    obtain ⟨r, hr', h3⟩ := bind_ok h3
    simp only [Except.ok.injEq] at h3
    exact ⟨r, hr', h3.symm⟩

/-- **C97, rejections.** A wavelet that is not a GMW, and a negative order inside a tuple, list or range, raise
`ValueError`. -/
theorem C97_rejects (x : List ℝ) (h : HoArgs) :
    (h.isGmw = false → (∀ k, h.order = .int k → 0 < k) → cwtOrder x h = .error .valueError) ∧
    (∀ ks, h.order = .seq ks → (∃ k ∈ ks, k < 0) → cwtOrder x h = .error .valueError) := by
  constructor
  · intro hg ho
    cases hk : h.order with
    | int k =>
      rw [cwtOrder_int hk (ho k hk)]
      unfold cwtHigherOrder hoWavelets
      simp [hg, bind, Except.bind]
    | seq ks =>
      rw [cwtOrder_seq hk]
      unfold cwtHigherOrder hoWavelets
      simp [hg, bind, Except.bind]
  · rintro ks hk ⟨k, hkm, hneg⟩
    rw [cwtOrder_seq hk]
    have : hoWavelets h ks = .error .valueError := by
      unfold hoWavelets
      split
      · induction ks generalizing h with
        | nil => simp at hkm
        | cons k' ks ih =>
          rw [List.mapM_cons]
          by_cases hk' : k' < 0
          · have : hoWavelet h k' = .error .valueError := by unfold hoWavelet; rw [if_pos hk']
            rw [this]; rfl
          · have e : hoWavelet h k' = .ok ⟨(h.fam k'.toNat).1, (h.fam k'.toNat).2,
                if k' = 0 then some h.normL1 else none⟩ := by
              unfold hoWavelet; rw [if_neg hk']
            have hm : k ∈ ks := by
              rcases List.mem_cons.1 hkm with rfl | hm
              · exact absurd hneg hk'
              · exact hm
            rw [e, ok_bind]
            have := ih { h with order := .seq ks } rfl hm (by assumption)
            have e2 : ks.mapM (hoWavelet h) = .error .valueError := this
            rw [e2]; rfl
      · rfl
    unfold cwtHigherOrder
    rw [this]; rfl

/-! ### Batches -/

/-- One signal's part of a batched result. -/
def HoRes.row (b : ℕ) : HoRes (List (List (List ℂ))) → HoRes (List (List ℂ))
  | .one r => .one (r.getD b [])
  | .many l => .many (l.map fun r => r.getD b [])

/-- The full claim about batches: whenever each signal alone is accepted, so is the batch, and every signal
gets the same transforms, scales and derivatives as alone. -/
def C97_batch_full : Prop :=
  ∀ (N : ℕ) (X : List (List ℝ)), 0 < N → (∀ x ∈ X, x.length = N) → ∀ h : HoArgs,
    (∀ x ∈ X, ∃ r, cwtOrder x h = .ok r) → X ≠ [] →
    ∃ M s D, cwtOrder2 N X h = .ok (M, s, D) ∧
      ∀ b (hb : b < X.length), cwtOrder X[b] h = .ok (M.row b, s, D.row b)

theorem forall₂_mem_right {α β : Type} {R : α → β → Prop} {l : List α} {m : List β}
    (h : List.Forall₂ R l m) {b : β} (hb : b ∈ m) : ∃ a, R a b := by
  induction h with
  | nil => simp at hb
  | cons h _ ih =>
    rcases List.mem_cons.1 hb with rfl | hb
    · exact ⟨_, h⟩
    · exact ih hb

theorem hoCombine_row (b n : ℕ) (hb : b < n) (avg : Bool) (l : List (List (List (List ℂ))))
    (hl : ∀ A ∈ l, A.length = n) (Z : HoRes (List (List (List ℂ)))) (h : hoCombine meanCube avg l = .ok Z) :
    hoCombine meanMat avg (l.map fun A => A.getD b []) = .ok (Z.row b) := by
  unfold hoCombine at h ⊢
  cases avg with
  | true =>
    simp only [if_true] at h ⊢
    cases l with
    | nil => simp at h
    | cons A l =>
      simp only [Except.ok.injEq] at h
      rw [← h]
      simp only [List.map_cons, HoRes.row, meanCube, List.headD_cons]
      have hbA : b < A.length := by rw [hl A (by simp)]; exact hb
      simp [hbA]
  | false =>
    simp only [Bool.false_eq_true, if_false] at h ⊢
    match l, h with
    | [], h => simp only [Except.ok.injEq] at h; rw [← h]; rfl
    | [A], h => simp only [Except.ok.injEq] at h; rw [← h]; rfl
    | A :: B :: l, h => simp only [Except.ok.injEq] at h; rw [← h]; rfl

/-- **C97, batches.** With an array of scales, a successful higher-order transform of a 2D array gives each
signal exactly what it gets alone (transforms, means, lists, scales, derivatives). Missing for the full
claim: named scales (see `C97_batch_refuted`). -/
theorem C97_batch_partial (N : ℕ) (X : List (List ℝ)) (hX : ∀ x ∈ X, x.length = N) (h : HoArgs)
    (hsc : ∀ name, h.a.scales ≠ .str name) (hord : ∀ k, h.order = .int k → 0 < k)
    (M : HoRes (List (List (List ℂ)))) (s : ScalesArg) (D : HoRes (List (List (List ℂ))))
    (hr : cwtOrder2 N X h = .ok (M, s, D)) :
    ∀ b (hb : b < X.length), cwtOrder X[b] h = .ok (M.row b, s, D.row b) := by
  intro b hb
  have key : ∀ (isSeq : Bool) (ks : List ℤ),
      cwtHigherOrder (fun w s => do let r ← cwt2 N X (hoCallArgs h w s); .ok (r.1, r.2.2)) meanCube
        X.length h isSeq ks = .ok (M, s, D) →
      cwtHigherOrder (fun w s => do let r ← cwt X[b] (hoCallArgs h w s); .ok (r.1, r.2.2)) meanMat
        X[b].length h isSeq ks = .ok (M.row b, s, D.row b) := by
    intro isSeq ks hr
    unfold cwtHigherOrder at hr ⊢
    obtain ⟨ws, hws, hr⟩ := bind_ok hr
    obtain ⟨s', hs, hr⟩ := bind_ok hr
    obtain ⟨out, ho, hr⟩ := bind_ok hr
    obtain ⟨W, hW, hr⟩ := bind_ok hr
    obtain ⟨dW, hdW, hr⟩ := bind_ok hr
    simp only [Except.ok.injEq, Prod.mk.injEq] at hr
    obtain ⟨rfl, rfl, rfl⟩ := hr
    have hs2 : hoScales h X[b].length = .ok s' := by
      rw [← hs]
      unfold hoScales
      split
      · rename_i n hn; exact absurd hn (hsc n)
      · rfl
    have ho2 : ws.mapM (fun w => (do let r ← cwt X[b] (hoCallArgs h w s'); .ok (r.1, r.2.2) : Py _)) =
        .ok (out.map fun o => (o.1.getD b [], o.2.getD b [])) := by
      rw [mapM_ok]
      have := (mapM_ok _ _ _).1 ho
      rw [List.forall₂_map_right_iff]
      refine this.imp ?_
      intro w o hw
      obtain ⟨r, hr, hw⟩ := bind_ok hw
      simp only [Except.ok.injEq] at hw
      subst hw
      have := (C71_batched N X hX _ _ _ _ hr).2.2 b hb
      rw [this]; rfl
    have hlen : ∀ o ∈ out, o.1.length = X.length ∧ o.2.length = X.length := by
      have := (mapM_ok _ _ _).1 ho
      intro o hom
      obtain ⟨w, hw⟩ := forall₂_mem_right this hom
      obtain ⟨r, hr, hw⟩ := bind_ok hw
      simp only [Except.ok.injEq] at hw
      subst hw
      have := C71_batched N X hX _ _ _ _ hr
      exact ⟨this.1, this.2.1⟩
    rw [hws, ok_bind, hs2, ok_bind, ho2, ok_bind]
    have g1 := hoCombine_row b X.length hb _ _ (by
      intro A hA
      obtain ⟨o, hom, rfl⟩ := List.mem_map.1 hA
      exact (hlen o hom).1) _ hW
    have g2 := hoCombine_row b X.length hb _ _ (by
      intro A hA
      obtain ⟨o, hom, rfl⟩ := List.mem_map.1 hA
      exact (hlen o hom).2) _ hdW
    rw [List.map_map] at g1 g2 ⊢
    have e1 : (Prod.fst ∘ fun o : List (List (List ℂ)) × List (List (List ℂ)) => (o.1.getD b [], o.2.getD b []))
        = (fun A : List (List (List ℂ)) => A.getD b []) ∘ Prod.fst := rfl
    have e2 : (Prod.snd ∘ fun o : List (List (List ℂ)) × List (List (List ℂ)) => (o.1.getD b [], o.2.getD b []))
        = (fun A : List (List (List ℂ)) => A.getD b []) ∘ Prod.snd := rfl
    rw [List.map_map, e1, e2]
    dsimp only
    rw [g1, ok_bind, g2, ok_bind]
  cases ho : h.order with
  | seq ks =>
    rw [cwtOrder_seq ho]
    refine key true ks ?_
    unfold cwtOrder2 at hr; rw [ho] at hr; exact hr
  | int k =>
    rw [cwtOrder_int ho (hord k ho)]
    refine key false [k] ?_
    unfold cwtOrder2 at hr; rw [ho] at hr; dsimp only at hr; rw [if_pos (hord k ho)] at hr; exact hr

/-! ### Witnesses -/

/-- Higher-order arguments over `argsR`: every order has the same real wavelet. -/
noncomputable def hoEx (sc : ScalesArg) (nv : Option ℚ) (l1 : Bool) (o : CwtOrderArg) (av : Option Bool) :
    HoArgs where
  a := { argsR none with scales := sc, nv := nv, l1Norm := l1 }
  isGmw := true
  fam := fun _ => (.real fnR, sw0)
  normL1 := true
  dtype := .f64
  order := o
  average := av

/-- Scales `[1, 2, 4]` as a column. -/
def sc124c : ScalesArg := .arr [3, 1] .f64 [1, 2, 4]

theorem process124c (N : ℕ) (wv : Option ScaleWavelet) (up : Bool) (d : ℕ) :
    processScales sc124c N wv none up d = .ok ([1, 2, 4], .log, 3, .int 1) := by
  have hp : positiveInteger (1 : ℤ) = .ok 1 := by simp [positiveInteger]
  simp only [processScales, sc124c, infer124, ok_bind, pure_eq_ok, ne_eq,
      not_true_eq_false, false_and, if_false, hp]
  rfl

theorem hoEx_call (x : List ℝ) (hx : 0 < x.length) (sc : ScalesArg) (nv : Option ℚ) (l1 : Bool) (o : CwtOrderArg)
    (av : Option Bool) (k : ℕ) (hk : k = 0 → l1 = true) (s : ScalesArg) (hs : s = sc124 ∨ s = sc124c) :
    ∃ W dW, cwt x (hoCallArgs (hoEx sc nv l1 o av) (ordWav (hoEx sc nv l1 o av) k) s) =
      .ok (W, [1, 2, 4], dW) := by
  have hps : processScales s x.length (some sw0) none true 4 = .ok ([1, 2, 4], .log, 3, .int 1) := by
    rcases hs with rfl | rfl
    · exact process124 _ _ _ _
    · exact process124c _ _ _ _
  refine C37_succeeds x _ none rfl hx 2 (1 / 2) (by simp [processFsT, hoCallArgs, hoEx, argsR]) ?_
    [1, 2, 4] .log 3 (.int 1) none ?_ (fun _ => rfl) hps
  · intro b hb
    by_cases h0 : k = 0
    · simp only [hoCallArgs, ordWav, hoEx, h0, if_true, Option.some.injEq] at hb
      simp only [hoCallArgs, hoEx, hk h0, ← hb]
    · simp [hoCallArgs, ordWav, h0] at hb
  · rintro ⟨n, hn⟩
    rcases hs with rfl | rfl
    · simp [hoCallArgs, sc124] at hn
    · simp [hoCallArgs, sc124c] at hn

theorem hoEx_wavs (sc : ScalesArg) (nv : Option ℚ) (l1 : Bool) (o : CwtOrderArg) (av : Option Bool)
    (ks : List ℕ) : hoWavelets (hoEx sc nv l1 o av) (ks.map fun k : ℕ => (k : ℤ)) =
      .ok (ks.map (ordWav (hoEx sc nv l1 o av))) := by
  unfold hoWavelets
  rw [if_pos (by rfl), mapM_ok]
  induction ks with
  | nil => exact .nil
  | cons k ks ih =>
    refine .cons ?_ ih
    unfold hoWavelet ordWav
    dsimp only
    rw [if_neg (by omega)]
    simp

/-- The named scales 'log:naive' with one voice are `1, 2, 4` for eight samples. -/
theorem naive8 (wv : ScaleWavelet) (d : ℕ) :
    processScales (.str "log:naive".toList) 8 (some wv) (some 1) true d =
      .ok ([1, 2, 4], .log, 3, .int 1) := by
  have hp : parseScalesStr "log:naive".toList = .ok (.log, some "naive".toList) := by decide
  have hi : positiveInteger 1 = .ok 1 := by decide
  have hc : checkPreset (some "naive".toList) = .ok (some .naive) := by decide
  have hl : Real.logb 2 8 = 3 := by
    rw [show (8 : ℝ) = 2 ^ (3 : ℝ) by norm_num]
    exact Real.logb_rpow (by norm_num) (by norm_num)
  have hb : cwtScalebounds wv 8 (some .naive) none none none true = .ok (1, ((8 : ℕ) : ℝ)) := by
    simp [cwtScalebounds, scaleboundsArgs, bind, Except.bind, pure, Except.pure]
  have hm : makeScales 8 (some 1) (some ((8 : ℕ) : ℝ)) 1 (.known .log) (some wv) d = .ok [1, 2, 4] := by
    have h8 : ((8 : ℕ) : ℝ) = 8 := by norm_num
    have h3 : scalePows 1 1 8 = (3, 0) := by
      unfold scalePows
      simp [hl]
    have h80 : ¬ (8 : ℝ) = 0 := by norm_num
    simp only [makeScales, h8, one_ne_zero, if_false, h80, Bool.false_and, Bool.false_eq_true, pure_eq_ok,
      ok_bind, h3]
    unfold logScales
    rw [show (3 : ℤ).toNat = 3 from rfl]
    norm_num [List.range_succ]
  simp only [processScales, hp, ok_bind, Option.getD_some, hi, hc, hb, hm, pure_eq_ok]
  rfl

/-- For one sample there are none. -/
theorem naive1 (wv : ScaleWavelet) (d : ℕ) :
    processScales (.str "log:naive".toList) 1 (some wv) (some 1) true d =
      .ok ([], .log, 0, .int 1) := by
  have hp : parseScalesStr "log:naive".toList = .ok (.log, some "naive".toList) := by decide
  have hi : positiveInteger 1 = .ok 1 := by decide
  have hc : checkPreset (some "naive".toList) = .ok (some .naive) := by decide
  have hb : cwtScalebounds wv 1 (some .naive) none none none true = .ok (1, ((1 : ℕ) : ℝ)) := by
    simp [cwtScalebounds, scaleboundsArgs, bind, Except.bind, pure, Except.pure]
  have hm : makeScales 1 (some 1) (some ((1 : ℕ) : ℝ)) 1 (.known .log) (some wv) d = .ok [] := by
    have h1 : ((1 : ℕ) : ℝ) = 1 := by norm_num
    have h3 : scalePows 1 1 1 = (0, 0) := by
      unfold scalePows
      simp
    simp only [makeScales, h1, one_ne_zero, if_false, Bool.false_and, Bool.false_eq_true, pure_eq_ok,
      ok_bind, h3]
    rfl
  simp only [processScales, hp, ok_bind, Option.getD_some, hi, hc, hb, hm, pure_eq_ok]
  rfl

theorem hoEx_scales (x : List ℝ) (hx : x.length = 8) (l1 : Bool) (o : CwtOrderArg) (av : Option Bool) :
    hoScales (hoEx (.str "log:naive".toList) (some 1) l1 o av) x.length = .ok sc124c := by
  have : processScales (.str "log:naive".toList) x.length (some sw0) (some 1) true 4 =
      .ok ([1, 2, 4], .log, 3, .int 1) := by rw [hx]; exact naive8 _ _
  show (do let r ← processScales (.str "log:naive".toList) x.length (some sw0) (some 1) true 4
           .ok (ScalesArg.arr [r.1.length, 1] .f64 r.1) : Py _) = _
  rw [this]; rfl

theorem hoEx_int (x : List ℝ) (hx : x.length = 8) (l1 : Bool) (av : Option Bool) :
    ∃ W dW, cwtOrder x (hoEx (.str "log:naive".toList) (some 1) l1 (.int 1) av) =
      .ok (.one W, sc124c, .one dW) := by
  obtain ⟨W, dW, h⟩ := hoEx_call x (by omega) (.str "log:naive".toList) (some 1) l1 (.int 1) av 1 (by simp) _
    (Or.inr rfl)
  refine ⟨W, dW, ?_⟩
  rw [cwtOrder_int (k := 1) rfl (by norm_num)]
  unfold cwtHigherOrder
  have hw := hoEx_wavs (.str "log:naive".toList) (some 1) l1 (.int 1) av [1]
  simp only [List.map_cons, List.map_nil, Nat.cast_one] at hw
  rw [hw, ok_bind, hoEx_scales x hx, ok_bind, List.mapM_cons]
  dsimp only
  rw [h]
  have hav : ¬ (hoAverage av 1 = some true ∨ (hoAverage av 1 = none ∧ (false : Bool) = true)) := by
    cases av with
    | none => simp [hoAverage]
    | some b => cases b <;> simp [hoAverage]
  simp only [ok_bind, List.mapM_nil, pure_eq_ok, List.map_cons, List.map_nil, List.length_cons, List.length_nil,
    zero_add]
  rw [show (hoEx (.str "log:naive".toList) (some 1) l1 (.int 1) av).average = av from rfl,
    decide_eq_false hav]
  rfl

/-- Negation of the claim about batches: a batch of one signal of eight samples, with named scales. The
signal alone gets three scales; in a batch of one, the scales are made for a length of *one* sample
(`len(x)` is the number of signals), there are none, and the call fails. -/
theorem C97_batch_refuted : ¬ C97_batch_full := by
  intro hfull
  obtain ⟨M, s, D, hr, -⟩ := hfull 8 [[3, 1, 4, 1, 5, 9, 2, 6]] (by norm_num) (by simp)
    (hoEx (.str "log:naive".toList) (some 1) true (.int 1) none)
    (by
      intro x hx
      simp only [List.mem_singleton] at hx
      obtain ⟨W, dW, h⟩ := hoEx_int x (by rw [hx]; rfl) true none
      exact ⟨_, h⟩) (by simp)
  unfold cwtOrder2 at hr
  simp only [hoEx] at hr
  rw [if_pos (by norm_num)] at hr
  obtain ⟨-, -, h3, out, h4, -, -⟩ := ho_ok hr
  have h3' : s = .arr [0, 1] .f64 [] := by
    unfold hoScales at h3
    simp only [List.length_cons, List.length_nil, zero_add, naive1, ok_bind, Except.ok.injEq] at h3
    exact h3.symm
  cases h4 with
  | cons g _ =>
    obtain ⟨r, hr, -⟩ := bind_ok g
    unfold cwt2 at hr
    obtain ⟨_, -, hr⟩ := bind_ok hr
    obtain ⟨_, -, hr⟩ := bind_ok hr
    obtain ⟨_, -, hr⟩ := bind_ok hr
    obtain ⟨sc, hsc, -⟩ := bind_ok hr
    rw [show (hoCallArgs _ _ s).scales = s from rfl, h3'] at hsc
    simp [processScales, inferScaletype, bind, Except.bind] at hsc

/-- The full claim about normalisation: a higher-order transform is only computed with a wavelet normalised
the way `l1_norm` says (as the order-0 transform is, which raises otherwise). -/
def C97_norm_full : Prop :=
  ∀ (x : List ℝ) (h : HoArgs) (k : ℕ), h.order = .int k → 0 < k →
    (∃ r, cwtOrder x h = .ok r) → h.normL1 = h.a.l1Norm

/-- Negation: with `l1_norm=False` (for instance `cwt(x, 'gmw', l1_norm=False, order=1)`) the order-1
transform is computed with the L1-normalised wavelet. -/
theorem C97_norm_refuted : ¬ C97_norm_full := by
  intro hfull
  obtain ⟨W, dW, h⟩ := hoEx_int [3, 1, 4, 1, 5, 9, 2, 6] rfl false none
  have := hfull _ _ 1 rfl (by norm_num) ⟨_, h⟩
  simp [hoEx] at this

/-- **C97, normalisation.** If order 0 is among the orders, the norms agree. Missing for the full claim:
calls without order 0 (see `C97_norm_refuted`). -/
theorem C97_norm_partial (x : List ℝ) (h : HoArgs) (ks : List ℤ) (hks : h.order = .seq ks) (h0 : 0 ∈ ks)
    (hr : ∃ r, cwtOrder x h = .ok r) : h.normL1 = h.a.l1Norm := by
  obtain ⟨⟨M, s, D⟩, hr⟩ := hr
  rw [cwtOrder_seq hks] at hr
  exact (ho_calls hr).2.2.2.2.1 h0

/-- The full claim about negative orders: there is no wavelet of negative order, so they are rejected. -/
def C97_negative_full : Prop :=
  ∀ (x : List ℝ) (h : HoArgs) (k : ℤ), h.order = .int k → k < 0 → ∃ e, cwtOrder x h = .error e

/-- Negation: `cwt(x, order=-1)` returns the order-0 transform. -/
theorem C97_negative_refuted : ¬ C97_negative_full := by
  intro hfull
  obtain ⟨W, dW, h⟩ := argsR_ok [3, 1, 4] (by simp) none
  obtain ⟨e, he⟩ := hfull [3, 1, 4] { hoEx sc124 none true (.int (-1)) none with a := argsR none } (-1) rfl
    (by norm_num)
  unfold cwtOrder at he
  simp only [hoEx] at he
  rw [if_neg (by norm_num), h] at he
  simp [bind, Except.bind] at he

/-- **C97, nonpositive integers.** Every nonpositive integer order gives the ordinary transform with the
wavelet as given. -/
theorem C97_nonpositive (x : List ℝ) (h : HoArgs) (k : ℤ) (hk : h.order = .int k) (h0 : k ≤ 0)
    (W : List (List ℂ)) (sc : List ℝ) (dW : List (List ℂ)) (hc : cwt x h.a = .ok (W, sc, dW)) :
    cwtOrder x h = .ok (.one W, .arr [sc.length] h.dtype sc, .one dW) := by
  unfold cwtOrder; rw [hk]; dsimp only; rw [if_neg (by omega), hc]; rfl

/-- The hypotheses of `C97_single`, `C97_scales` hold. -/
example (av : Option Bool) : ∃ W dW,
    cwtOrder [3, 1, 4, 1, 5, 9, 2, 6] (hoEx (.str "log:naive".toList) (some 1) true (.int 1) av) =
      .ok (.one W, sc124c, .one dW) := hoEx_int _ rfl _ _

/-- Orders `0, 2, 1` with explicit scales: accepted, averaged or not. -/
theorem hoEx_seq (x : List ℝ) (hx : 0 < x.length) (av : Option Bool) :
    ∃ M D, cwtOrder x (hoEx sc124 none true (.seq [0, 2, 1]) av) = .ok (M, sc124, D) := by
  have hc := fun k => hoEx_call x hx sc124 none true (.seq [0, 2, 1]) av k (fun _ => rfl) sc124 (Or.inl rfl)
  obtain ⟨W0, dW0, h0⟩ := hc 0
  obtain ⟨W1, dW1, h1⟩ := hc 1
  obtain ⟨W2, dW2, h2⟩ := hc 2
  rw [cwtOrder_seq (ks := [0, 2, 1]) rfl]
  have hw := hoEx_wavs sc124 none true (.seq [0, 2, 1]) av [0, 2, 1]
  simp only [List.map_cons, List.map_nil, Nat.cast_one, Nat.cast_zero, Nat.cast_ofNat] at hw
  have hs : hoScales (hoEx sc124 none true (.seq [0, 2, 1]) av) x.length = .ok sc124 := rfl
  unfold cwtHigherOrder
  rw [hw, ok_bind, hs, ok_bind]
  simp only [List.mapM_cons, List.mapM_nil, h0, h1, h2, ok_bind, pure_eq_ok, List.map_cons, List.map_nil]
  unfold hoCombine
  split <;> exact ⟨_, _, rfl⟩

/-- The hypotheses of `C97_average`, `C97_norm_partial` and `C97_list` hold. -/
example : (∃ r, cwtOrder [3, 1, 4] (hoEx sc124 none true (.seq [0, 2, 1]) none) = .ok r) ∧
    (∃ r, cwtOrder [3, 1, 4] (hoEx sc124 none true (.seq [0, 2, 1]) (some false)) = .ok r) := by
  obtain ⟨M, D, h⟩ := hoEx_seq [3, 1, 4] (by simp) none
  obtain ⟨M', D', h'⟩ := hoEx_seq [3, 1, 4] (by simp) (some false)
  exact ⟨⟨_, h⟩, ⟨_, h'⟩⟩

/-- Those of `C97_batch_partial`: a batch of two signals at order 1. -/
example : ∃ r, cwtOrder2 3 [[3, 1, 4], [1, 5, 9]] (hoEx sc124 none true (.int 1) none) = .ok r := by
  obtain ⟨W, dW, h⟩ := hoEx_call [3, 1, 4] (by simp) sc124 none true (.int 1) none 1 (by simp) sc124 (Or.inl rfl)
  obtain ⟨Ws, dWs, h2⟩ := C71_succeeds 3 (by norm_num) [[3, 1, 4], [1, 5, 9]] (by simp) _ none rfl [3, 1, 4]
    (by simp) W _ dW h
  have hw := hoEx_wavs sc124 none true (.int 1) none [1]
  simp only [List.map_cons, List.map_nil, Nat.cast_one] at hw
  have hs : hoScales (hoEx sc124 none true (.int 1) none) 2 = .ok sc124 := rfl
  unfold cwtOrder2
  simp only [show (hoEx sc124 none true (.int 1) none).order = .int 1 from rfl]
  rw [if_pos (by norm_num)]
  unfold cwtHigherOrder
  rw [hw, ok_bind, show ([[3, 1, 4], [1, 5, 9]] : List (List ℝ)).length = 2 from rfl, hs, ok_bind]
  simp only [List.mapM_cons, List.mapM_nil, h2, ok_bind, pure_eq_ok, List.map_cons, List.map_nil]
  unfold hoCombine
  split <;> exact ⟨_, rfl⟩

/-- Those of `C97_rejects`. -/
example : cwtOrder [3, 1, 4] (hoEx sc124 none true (.seq [0, -2, 1]) none) = .error .valueError :=
  (C97_rejects _ _).2 _ rfl ⟨-2, by simp, by norm_num⟩

end Ssq
