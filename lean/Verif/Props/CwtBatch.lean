import Verif.Props.Cwt

/-!
# Batched `cwt` (C71)
-/
namespace Ssq

theorem mapM_ok {α β : Type} (f : α → Py β) : ∀ (l : List α) (ys : List β),
    l.mapM f = .ok ys ↔ List.Forall₂ (fun a b => f a = .ok b) l ys
  | [], ys => by
    simp only [List.mapM_nil, pure_eq_ok, Except.ok.injEq]
    constructor
    · rintro rfl; exact .nil
    · intro h; cases h; rfl
  | a :: l, ys => by
    simp only [List.mapM_cons]
    constructor
    · intro h
      obtain ⟨b, hb, h⟩ := bind_ok h
      obtain ⟨bs, hbs, h⟩ := bind_ok h
      simp only [pure_eq_ok, Except.ok.injEq] at h
      rw [← h]
      exact .cons hb ((mapM_ok f l bs).1 hbs)
    · intro h
      cases h with
      | cons h1 h2 =>
        rw [h1, (mapM_ok f l _).2 h2]
        rfl

/-- Padding a batch pads each signal. -/
theorem cwtPad2_ok (N : ℕ) (X : List (List ℝ)) (hX : ∀ x ∈ X, x.length = N) (s : Option String)
    (p : List (List ℝ) × ℤ) (h : cwtPad2 N X s = .ok p) :
    List.Forall₂ (fun x xp => cwtPad x s = .ok (xp, p.2)) X p.1 := by
  cases s with
  | none =>
    simp only [cwtPad2, Except.ok.injEq] at h
    rw [← h]
    simp only [cwtPad, Except.ok.injEq, Prod.mk.injEq, and_true]
    exact List.forall₂_same.2 fun _ _ => rfl
  | some s =>
    simp only [cwtPad2] at h
    obtain ⟨r, hr, h⟩ := bind_ok h
    simp only [Except.ok.injEq] at h
    rw [← h]
    unfold padsignal2 at hr
    obtain ⟨t, ht, hr⟩ := bind_ok hr
    obtain ⟨xs, hxs, hr⟩ := bind_ok hr
    simp only [pure_eq_ok, Except.ok.injEq] at hr
    rw [← hr]
    simp only
    have h1 := (mapM_ok _ _ _).1 hxs
    have h2 : List.Forall₂ (fun x xp => x ∈ X ∧
        (if (true : Bool) = true then padNumpy t x (padWidths N none).2.1 (padWidths N none).2.2
          else padTorch t x (padWidths N none).2.1 (padWidths N none).2.2) = .ok xp) X xs :=
      List.forall₂_and_left _ _ |>.2 ⟨fun x hx => hx, h1⟩
    refine h2.imp ?_
    rintro x xp ⟨hx, hxp⟩
    simp only [if_true] at hxp
    simp only [cwtPad, padsignal, ht, ok_bind, if_true, hX x hx, hxp, pure_eq_ok]
    rfl

/-- **C71.** A successful `cwt` of a 2D array of signals returns one transform and one derivative per
signal, and each is exactly what `cwt` returns for that signal alone, with the same scales. For every
wavelet, scales, pad type, norm, code path and sampling rate. -/
theorem C71_batched (N : ℕ) (X : List (List ℝ)) (hX : ∀ x ∈ X, x.length = N) (a : CwtArgs)
    (Ws : List (List (List ℂ))) (scales : List ℝ) (dWs : List (List (List ℂ)))
    (h : cwt2 N X a = .ok (Ws, scales, dWs)) :
    Ws.length = X.length ∧ dWs.length = X.length ∧
    ∀ b (hb : b < X.length), cwt X[b] a = .ok (Ws.getD b [], scales, dWs.getD b []) := by
  unfold cwt2 at h
  obtain ⟨r, hr, h⟩ := bind_ok h
  obtain ⟨u, hu, h⟩ := bind_ok h
  obtain ⟨p, hp, h⟩ := bind_ok h
  obtain ⟨sc, hsc, h⟩ := bind_ok h
  simp only [Except.ok.injEq, Prod.mk.injEq] at h
  obtain ⟨rfl, rfl, rfl⟩ := h
  have hf := cwtPad2_ok N X hX _ _ hp
  have hl := hf.length_eq
  refine ⟨by simp [hl], by simp [hl], fun b hb => ?_⟩
  have hb' : b < p.1.length := hl ▸ hb
  have hpb : cwtPad X[b] a.padtype = .ok (p.1[b], p.2) := by
    have := (List.forall₂_iff_get.1 hf).2 b hb hb'
    simpa using this
  have hN := hX _ (List.getElem_mem hb)
  rw [cwt_ok_iff]
  refine ⟨r, (p.1[b], p.2), sc, by rw [hN]; exact hr, hu, hpb, by rw [hN]; exact hsc, rfl, ?_⟩
  rw [List.getD_eq_getElem _ _ (by simpa using hb'), List.getD_eq_getElem _ _ (by simpa using hb')]
  simp [hN]

/-- **C71, success.** A batch is accepted exactly when one of its signals is. -/
theorem C71_succeeds (N : ℕ) (hN : 0 < N) (X : List (List ℝ)) (hX : ∀ x ∈ X, x.length = N)
    (a : CwtArgs) (t : Option PadType) (ht : a.padtype = t.map padName)
    (x : List ℝ) (hx : x ∈ X) (W : List (List ℂ)) (scales : List ℝ) (dW : List (List ℂ))
    (h : cwt x a = .ok (W, scales, dW)) :
    ∃ Ws dWs, cwt2 N X a = .ok (Ws, scales, dWs) := by
  obtain ⟨r, p, sc, hr, hu, hpp, hsc, rfl, hW⟩ := (cwt_ok_iff _ _ _ _ _).1 h
  rw [hX x hx] at hr hsc
  have : ∃ q, cwtPad2 N X a.padtype = .ok q := by
    rw [ht]
    cases t with
    | none => exact ⟨_, rfl⟩
    | some t =>
      have h1 : ∀ y ∈ X, ∃ yp, padNumpy t y (padWidths N none).2.1 (padWidths N none).2.2 = .ok yp := by
        intro y hy
        obtain ⟨yp, m, hy1, -, -⟩ := cwtPad_ok (some t) y (by rw [hX y hy]; exact hN)
        simp only [Option.map_some, cwtPad] at hy1
        obtain ⟨q, hq, -⟩ := bind_ok hy1
        unfold padsignal at hq
        obtain ⟨t', ht', hq⟩ := bind_ok hq
        rw [parse_padName] at ht'
        simp only [Except.ok.injEq] at ht'
        subst ht'
        obtain ⟨z, hz, -⟩ := bind_ok hq
        rw [hX y hy] at hz
        exact ⟨z, hz⟩
      have h2 : ∃ ys, X.mapM (fun y => padNumpy t y (padWidths N none).2.1 (padWidths N none).2.2) =
          .ok ys := by
        clear hX hx
        induction X with
        | nil => exact ⟨[], rfl⟩
        | cons y X ih =>
          obtain ⟨yp, hyp⟩ := h1 y (by simp)
          obtain ⟨ys, hys⟩ := ih (fun z hz => h1 z (by simp [hz]))
          exact ⟨yp :: ys, by rw [List.mapM_cons, hyp, hys]; rfl⟩
      obtain ⟨ys, hys⟩ := h2
      refine ⟨(ys, (padWidths N none).2.1), ?_⟩
      simp only [Option.map_some, cwtPad2, padsignal2, parse_padName, ok_bind, if_true, hys, pure_eq_ok]
  obtain ⟨q, hq⟩ := this
  unfold cwt2
  simp only [hr, hu, hq, hsc, ok_bind]
  exact ⟨_, _, rfl⟩

/-- The hypotheses hold for a batch of two signals and every pad type. -/
example (t : Option PadType) : ∃ Ws dWs, cwt2 3 [[3, 1, 4], [1, 5, 9]] (argsR t) = .ok (Ws, [1, 2, 4], dWs) := by
  obtain ⟨W, dW, h⟩ := argsR_ok [3, 1, 4] (by simp) t
  exact C71_succeeds 3 (by norm_num) _ (by simp) _ t rfl [3, 1, 4] (by simp) W _ dW h

end Ssq
