import Verif.Model.Batch
import Verif.Props.CwtBatch
import Verif.Props.Ssqueeze
import Verif.Props.Stft
import Verif.Props.SsqStft
import Verif.Props.SsqCwtFull

/-!
# Batches (C101, C102)
-/
namespace Ssq
open Complex

theorem mapM_getD {α β : Type} {f : α → Py β} {l : List α} {ys : List β} (d : β) (h : l.mapM f = .ok ys) :
    ys.length = l.length ∧ ∀ b (hb : b < l.length), f l[b] = .ok (ys.getD b d) := by
  have h := (mapM_ok f l ys).1 h
  refine ⟨h.length_eq.symm, fun b hb => ?_⟩
  rw [List.getD_eq_getElem _ _ (h.length_eq ▸ hb)]
  exact h.get hb _

theorem mapM_of_all {α β : Type} {f : α → Py β} {l : List α} (h : ∀ a ∈ l, ∃ b, f a = .ok b) :
    ∃ ys, l.mapM f = .ok ys := by
  induction l with
  | nil => exact ⟨[], rfl⟩
  | cons a l ih =>
    obtain ⟨b, hb⟩ := h a (by simp)
    obtain ⟨ys, hy⟩ := ih fun a ha => h a (by simp [ha])
    exact ⟨b :: ys, by rw [List.mapM_cons, hb, ok_bind, hy]; rfl⟩

/-! ## `stft` -/

theorem stftCore2_ok {Xp : List (List ℝ)} {w dw : List ℝ} {n hop : ℕ} {fs : ℝ} {md : Bool}
    {r : List (List (List ℂ)) × List (List (List ℂ))} (h : stftCore2 Xp w dw n hop fs md = .ok r) :
    r.1.length = Xp.length ∧ r.2.length = Xp.length ∧
    ∀ b (hb : b < Xp.length), stftCore Xp[b] w dw n hop fs md = .ok (r.1.getD b [], r.2.getD b []) := by
  unfold stftCore2 at h
  obtain ⟨S, hS, h⟩ := bind_ok h
  obtain ⟨dS, hdS, h⟩ := bind_ok h
  rw [hS, Except.ok.injEq] at hdS
  subst hdS
  simp only at h
  obtain ⟨S', hS', h⟩ := bind_ok h
  obtain ⟨dS', hdS', h⟩ := bind_ok h
  split at h
  · exact absurd h (by simp [bind, Except.bind])
  rename_i hn
  simp only [pure_eq_ok, ok_bind, Except.ok.injEq] at h
  subst h
  obtain ⟨l1, e1⟩ := mapM_getD [] hS
  obtain ⟨l3, e3⟩ := mapM_getD [] hS'
  obtain ⟨l4, e4⟩ := mapM_getD [] hdS'
  refine ⟨by simp [l3, l1], by simp [l4, l1], fun b hb => ?_⟩
  have g1 := e1 b hb
  have g3 := e3 b (by omega)
  have g4 := e4 b (by omega)
  rw [List.getD_eq_getElem _ _ (by omega)] at g1
  unfold stftCore
  rw [g1, ok_bind, ok_bind]
  simp only
  rw [g3, ok_bind, g4, ok_bind, if_neg hn]
  simp only [pure_eq_ok, ok_bind]
  rw [List.getD_eq_getElem _ _ (by simp [l3, l1]; omega), List.getD_eq_getElem _ _ (by simp [l4, l1]; omega),
    List.getD_eq_getElem _ _ (by simp [l3, l1]; omega), List.getD_eq_getElem _ _ (by simp [l4, l1]; omega), List.getElem_map,
    List.getElem_map]

theorem stftCore2_runs {Xp : List (List ℝ)} (hne : Xp ≠ []) {w dw : List ℝ} {n hop : ℕ} {fs : ℝ} {md : Bool}
    (h : ∀ xp ∈ Xp, ∃ r, stftCore xp w dw n hop fs md = .ok r) : ∃ r, stftCore2 Xp w dw n hop fs md = .ok r := by
  have key : ∀ xp ∈ Xp, ∃ S S' dS', buffer xp n ((n : ℤ) - hop) md = .ok S ∧
      S.mapM (mulWindow (if md then ifftshiftL w else w)) = .ok S' ∧
      S.mapM (mulWindow (if md then (ifftshiftL dw).map (· * fs) else dw)) = .ok dS' ∧ n ≠ 0 := by
    intro xp hxp
    obtain ⟨r, hr⟩ := h xp hxp
    unfold stftCore at hr
    obtain ⟨S, hS, hr⟩ := bind_ok hr
    obtain ⟨dS, hdS, hr⟩ := bind_ok hr
    simp only at hr
    obtain ⟨S', hS', hr⟩ := bind_ok hr
    obtain ⟨dS', hdS', hr⟩ := bind_ok hr
    split at hr
    · exact absurd hr (by simp [bind, Except.bind])
    rename_i hn
    rw [hS, Except.ok.injEq] at hdS
    subst hdS
    exact ⟨S, S', dS', hS, hS', hdS', hn⟩
  obtain ⟨Ss, hSs⟩ := mapM_of_all (f := fun x => buffer x n ((n : ℤ) - hop) md) (l := Xp) fun xp hxp => by
    obtain ⟨S, -, -, hS, -⟩ := key xp hxp; exact ⟨S, hS⟩
  obtain ⟨xp0, hxp0⟩ := List.exists_mem_of_ne_nil _ hne
  obtain ⟨-, -, -, -, -, -, hn⟩ := key xp0 hxp0
  obtain ⟨l1, e1⟩ := mapM_getD [] hSs
  have mem : ∀ S ∈ Ss, ∃ xp ∈ Xp, buffer xp n ((n : ℤ) - hop) md = .ok S := by
    intro S hS
    obtain ⟨b, hb, rfl⟩ := List.getElem_of_mem hS
    refine ⟨Xp[b]'(by omega), List.getElem_mem _, ?_⟩
    have := e1 b (by omega)
    rwa [List.getD_eq_getElem _ _ hb] at this
  obtain ⟨Ss', hSs'⟩ := mapM_of_all (f := fun cols : List (List ℝ) => cols.mapM (mulWindow (if md then ifftshiftL w else w)))
    (l := Ss) fun S hS => by
      obtain ⟨xp, hxp, hb⟩ := mem S hS
      obtain ⟨S0, S', -, h0, h1, -⟩ := key xp hxp
      rw [hb, Except.ok.injEq] at h0
      exact ⟨S', h0 ▸ h1⟩
  obtain ⟨dSs', hdSs'⟩ := mapM_of_all
    (f := fun cols : List (List ℝ) => cols.mapM (mulWindow (if md then (ifftshiftL dw).map (· * fs) else dw)))
    (l := Ss) fun S hS => by
      obtain ⟨xp, hxp, hb⟩ := mem S hS
      obtain ⟨S0, -, dS', h0, -, h1, -⟩ := key xp hxp
      rw [hb, Except.ok.injEq] at h0
      exact ⟨dS', h0 ▸ h1⟩
  unfold stftCore2
  rw [show buffer2 Xp n ((n : ℤ) - hop) md = .ok Ss from hSs]
  simp only [ok_bind]
  rw [hSs', ok_bind, hdSs', ok_bind, if_neg hn]
  exact ⟨_, rfl⟩

theorem padsignal2_ok {N : ℕ} {X : List (List ℝ)} (hX : ∀ x ∈ X, x.length = N) {s : String} {pl : Option ℤ}
    {p : List (List ℝ) × ℤ × ℤ × ℤ} (h : padsignal2 true N X s pl = .ok p) :
    p.1.length = X.length ∧ ∀ b (hb : b < X.length), padsignal true X[b] s pl = .ok (p.1.getD b [], p.2) := by
  unfold padsignal2 at h
  obtain ⟨t, ht, h⟩ := bind_ok h
  rcases hq : padWidths N pl with ⟨u, n1, n2⟩
  rw [hq] at h
  simp only [if_true] at h
  obtain ⟨xs, hxs, h⟩ := bind_ok h
  simp only [pure_eq_ok, Except.ok.injEq] at h
  subst h
  obtain ⟨l1, e1⟩ := mapM_getD [] hxs
  refine ⟨l1, fun b hb => ?_⟩
  have := e1 b hb
  unfold padsignal
  rw [ht, ok_bind, hX _ (List.getElem_mem hb), hq]
  simp only [if_true, this, ok_bind, pure_eq_ok]

/-- **C101.** A successful `stft` of a 2D array returns one transform and one derivative per signal, each exactly what `stft`
returns for that signal alone. For every window, FFT length, hop, pad type, modulation and sampling rate. -/
theorem C101_batched (lib : WinLib) (tiny : ℝ) (N : ℕ) (X : List (List ℝ)) (hX : ∀ x ∈ X, x.length = N) (a : StftArgs)
    (n : ℕ) (Ss dSs : List (List (List ℂ))) (h : stft2 lib tiny N X a = .ok (n, Ss, dSs)) :
    Ss.length = X.length ∧ dSs.length = X.length ∧
    ∀ b (hb : b < X.length), stft lib tiny X[b] a = .ok (n, Ss.getD b [], dSs.getD b []) := by
  unfold stft2 at h
  obtain ⟨m, hm, h⟩ := bind_ok h
  simp only at h
  obtain ⟨w, hw, h⟩ := bind_ok h
  obtain ⟨u, hu, h⟩ := bind_ok h
  obtain ⟨p, hp, h⟩ := bind_ok h
  obtain ⟨r, hr, h⟩ := bind_ok h
  simp only [pure_eq_ok, Except.ok.injEq, Prod.mk.injEq] at h
  obtain ⟨rfl, rfl, rfl⟩ := h
  obtain ⟨l1, l2, e⟩ := stftCore2_ok hr
  obtain ⟨l3, e3⟩ := padsignal2_ok hX hp
  refine ⟨by omega, by omega, fun b hb => ?_⟩
  have g := e b (by omega)
  have g3 := e3 b hb
  rw [List.getD_eq_getElem _ _ (by omega)] at g3
  unfold stft
  simp only [hX _ (List.getElem_mem hb)]
  rw [hm, ok_bind, hw, ok_bind, hu, ok_bind, g3, ok_bind]
  simp only
  rw [g]
  rfl

/-- **C101, success.** A nonempty batch is accepted if each of its signals is. -/
theorem C101_succeeds (lib : WinLib) (tiny : ℝ) (N : ℕ) (X : List (List ℝ)) (hne : X ≠ []) (hX : ∀ x ∈ X, x.length = N)
    (a : StftArgs) (h : ∀ x ∈ X, ∃ r, stft lib tiny x a = .ok r) : ∃ r, stft2 lib tiny N X a = .ok r := by
  have key : ∀ x ∈ X, ∃ n w xp q r, stftNfft N a = .ok n ∧
      getWindowD lib tiny a.window (stftWinLen n a) (some n) = .ok w ∧ checkNOLA w.1 a.hop = .ok () ∧
      padsignal true x a.padtype (some ((N : ℤ) + n - 1)) = .ok (xp, q) ∧
      stftCore xp w.1 w.2 n a.hop a.fs a.modulated = .ok r := by
    intro x hx
    obtain ⟨r, hr⟩ := h x hx
    unfold stft at hr
    simp only [hX x hx] at hr
    obtain ⟨n, hn, hr⟩ := bind_ok hr
    obtain ⟨w, hw, hr⟩ := bind_ok hr
    obtain ⟨u, hu, hr⟩ := bind_ok hr
    obtain ⟨p, hp, hr⟩ := bind_ok hr
    obtain ⟨q, hq, hr⟩ := bind_ok hr
    exact ⟨n, w, p.1, p.2, q, hn, hw, hu, hp, hq⟩
  obtain ⟨x0, hx0⟩ := List.exists_mem_of_ne_nil _ hne
  obtain ⟨n, w, xp0, q0, -, hn, hw, hu, hp0, -⟩ := key x0 hx0
  have hpad : ∃ p, padsignal2 true N X a.padtype (some ((N : ℤ) + n - 1)) = .ok p := by
    unfold padsignal at hp0
    obtain ⟨t, ht, -⟩ := bind_ok hp0
    rcases hq : padWidths N (some ((N : ℤ) + n - 1)) with ⟨u, n1, n2⟩
    obtain ⟨xs, hxs⟩ := mapM_of_all (f := fun x : List ℝ => padNumpy t x n1 n2) (l := X) fun x hx => by
      obtain ⟨n', w', xp, q, r, hn', -, -, hp, -⟩ := key x hx
      rw [hn, Except.ok.injEq] at hn'
      subst hn'
      unfold padsignal at hp
      rw [ht, ok_bind, hX x hx, hq] at hp
      simp only [if_true] at hp
      obtain ⟨y, hy, -⟩ := bind_ok hp
      exact ⟨y, hy⟩
    unfold padsignal2
    rw [ht, ok_bind, hq]
    simp only [if_true]
    rw [hxs]
    exact ⟨_, rfl⟩
  obtain ⟨p, hp⟩ := hpad
  obtain ⟨l3, e3⟩ := padsignal2_ok hX hp
  have hcore : ∃ r, stftCore2 p.1 w.1 w.2 n a.hop a.fs a.modulated = .ok r := by
    refine stftCore2_runs (by intro h0; rw [h0] at l3; exact hne (List.length_eq_zero_iff.1 l3.symm)) fun xp hxp => ?_
    obtain ⟨b, hb, rfl⟩ := List.getElem_of_mem hxp
    have hb' : b < X.length := by omega
    obtain ⟨n', w', xp, q, r, hn', hw', -, hp', hr⟩ := key X[b] (List.getElem_mem _)
    rw [hn, Except.ok.injEq] at hn'
    subst hn'
    rw [hw, Except.ok.injEq] at hw'
    subst hw'
    have g := e3 b hb'
    rw [hp', Except.ok.injEq, Prod.mk.injEq, List.getD_eq_getElem _ _ hb] at g
    exact ⟨r, g.1 ▸ hr⟩
  obtain ⟨r, hr⟩ := hcore
  unfold stft2
  rw [hn, ok_bind]
  simp only
  rw [hw, ok_bind, hu, ok_bind, hp, ok_bind, hr]
  exact ⟨_, rfl⟩

/-- Non-vacuity: two signals of four samples. -/
example : ∃ Ss dSs, stft2 onesLib 0 4 [[1, 2, 3, 4], [0, 1, 0, -5]] exArgs = .ok (3, Ss, dSs) ∧ Ss.length = 2 ∧
    stft onesLib 0 [0, 1, 0, -5] exArgs = .ok (3, Ss.getD 1 [], dSs.getD 1 []) := by
  have hv : ∀ x : List ℝ, x.length = 4 → StftValid onesLib 0 x exArgs 3 [1, 2, 1] (zeroDenormals 0 (diffWindow [1, 2, 1]))
      .reflect := by
    intro x hx
    have h := exValid
    exact ⟨by omega, h.hhop, h.hm, by rw [hx]; exact h.hnfft, h.hwin, h.hw, h.hpad, by intro h; cases h⟩
  have hs : ∀ x : List ℝ, x.length = 4 → ∃ S dS, stft onesLib 0 x exArgs = .ok (3, S, dS) := by
    intro x hx
    obtain ⟨E, hE⟩ := exists_extension .reflect x (by omega)
    obtain ⟨S, dS, h1, -⟩ := C07_stft_entries (hv x hx) E hE
    exact ⟨S, dS, h1⟩
  have hX : ∀ x ∈ ([[1, 2, 3, 4], [0, 1, 0, -5]] : List (List ℝ)), x.length = 4 := by simp
  obtain ⟨⟨n, Ss, dSs⟩, hr⟩ := C101_succeeds onesLib 0 4 [[1, 2, 3, 4], [0, 1, 0, -5]] (by simp) hX exArgs
    fun x hx => by obtain ⟨S, dS, h⟩ := hs x (hX x hx); exact ⟨_, h⟩
  obtain ⟨l1, -, h⟩ := C101_batched onesLib 0 4 _ hX exArgs n Ss dSs hr
  have h1 := h 1 (by simp)
  obtain ⟨S, dS, h2⟩ := hs [0, 1, 0, -5] (by simp)
  have : n = 3 := by
    simp only [List.getElem_cons_succ, List.getElem_cons_zero] at h1
    rw [h2, Except.ok.injEq, Prod.mk.injEq] at h1
    exact h1.1.symm
  subst this
  exact ⟨Ss, dSs, hr, by simpa using l1, h1⟩

/-! ## `ssqueeze` -/

/-- The arrays have as many signals as `Wx`. -/
def SsqBatch.Consistent (q : SsqBatch) : Prop :=
  q.Ws ≠ [] ∧ (∀ l, q.ws = some l → l.length = q.Ws.length) ∧ ∀ l, q.dWs = some l → l.length = q.Ws.length

theorem SsqBatch.Consistent.reaches {q : SsqBatch} (h : q.Consistent) {b : ℕ} (hb : b < q.Ws.length) :
    q.reaches b = true := by
  unfold SsqBatch.reaches
  rw [Bool.and_eq_true]
  constructor
  · split
    · rfl
    · next l hl => rw [h.2.1 l hl]; simpa using hb
  · split
    · rfl
    · next l hl => rw [h.2.2 l hl]; simpa using hb

/-- The later checks of `ssqueeze`. -/
theorem process_iff (a : SsqArgs) (dt : ℝ) : ssqProcessArgs a = .ok dt ↔
    ¬ (a.w.isNone ∧ (a.dWx.isNone ∨ a.gamma.isNone)) ∧ (¬ ∃ w, a.w = some w ∧ hasNegative a.M a.N w) ∧
    (∃ o, checkSsqueezingArgs false a.squeezing a.maprange a.wavelet.isSome none none false a.transform = .ok o) ∧
    ¬ (a.scales.isNone ∧ a.transform = .cwt) ∧ ∃ r, processFsT a.fs a.t a.N = .ok (.fin r dt) := by
  unfold ssqProcessArgs
  split
  · next h => exact ⟨fun hh => by simp at hh, fun hh => absurd h hh.1⟩
  next h1 =>
  split
  · next h => simp only [reduceCtorEq, h, not_true_eq_false, false_and, and_false]
  next h2 =>
  simp only [h1, h2, not_false_eq_true, true_and]
  constructor
  · intro h
    obtain ⟨o, ho, h⟩ := bind_ok h
    split at h
    · simp at h
    next h3 =>
    obtain ⟨r, hr, h⟩ := bind_ok h
    cases r with
    | infinite => simp at h
    | fin r y =>
      simp only [Except.ok.injEq] at h
      subst h
      exact ⟨⟨o, ho⟩, h3, r, hr⟩
  · rintro ⟨⟨o, ho⟩, h3, r, hr⟩
    rw [ho, ok_bind, if_neg h3, hr]
    rfl

/-- See `process_iff`. -/
theorem process3_iff' (q : SsqBatch) (dt : ℝ) : ssqProcessArgs3 q = .ok dt ↔
    ¬ (q.ws.isNone ∧ (q.dWs.isNone ∨ q.base.gamma.isNone)) ∧
    (¬ ∃ l, q.ws = some l ∧ ∃ w ∈ l, hasNegative q.base.M q.base.N w) ∧
    (∃ o, checkSsqueezingArgs false q.base.squeezing q.base.maprange q.base.wavelet.isSome none none false
      q.base.transform = .ok o) ∧
    ¬ (q.base.scales.isNone ∧ q.base.transform = .cwt) ∧ ∃ r, processFsT q.base.fs q.base.t q.base.N = .ok (.fin r dt) := by
  unfold ssqProcessArgs3
  split
  · next h => exact ⟨fun hh => by simp at hh, fun hh => absurd h hh.1⟩
  next h1 =>
  split
  · next h => simp only [reduceCtorEq, h, not_true_eq_false, false_and, and_false]
  next h2 =>
  simp only [h1, h2, not_false_eq_true, true_and]
  constructor
  · intro h
    obtain ⟨o, ho, h⟩ := bind_ok h
    split at h
    · simp at h
    next h3 =>
    obtain ⟨r, hr, h⟩ := bind_ok h
    cases r with
    | infinite => simp at h
    | fin r y =>
      simp only [Except.ok.injEq] at h
      subst h
      exact ⟨⟨o, ho⟩, h3, r, hr⟩
  · rintro ⟨⟨o, ho⟩, h3, r, hr⟩
    rw [ho, ok_bind, if_neg h3, hr]
    rfl

theorem process3_iff {q : SsqBatch} (hq : q.Consistent) {g : Squeezing}
    (hc : ∀ (m : MapRange) (b : Bool) (t : Transform), checkSsqueezingArgs false g m b none none false t =
      checkSsqueezingArgs false q.base.squeezing m b none none false t) (dt : ℝ) :
    ssqProcessArgs3 q = .ok dt ↔ ∀ b < q.Ws.length, ssqProcessArgs { q.at b with squeezing := g } = .ok dt := by
  have hpos : 0 < q.Ws.length := List.length_pos_iff.2 hq.1
  have hneg : (∃ l, q.ws = some l ∧ ∃ w ∈ l, hasNegative q.base.M q.base.N w) ↔
      ∃ b < q.Ws.length, ∃ w, Option.map (fun l : List (ℕ → ℕ → Phase) => l.getD b fun _ _ => .inf) q.ws = some w ∧
        hasNegative q.base.M q.base.N w := by
    constructor
    · rintro ⟨l, hl, w, hw, hn⟩
      obtain ⟨b, hb, rfl⟩ := List.getElem_of_mem hw
      exact ⟨b, by rw [← hq.2.1 l hl]; exact hb, l[b],
        by rw [hl, Option.map_some, List.getD_eq_getElem _ _ hb], hn⟩
    · rintro ⟨b, hb, w, hw, hn⟩
      rw [Option.map_eq_some_iff] at hw
      obtain ⟨l, hl, rfl⟩ := hw
      have hb' : b < l.length := by rw [hq.2.1 l hl]; exact hb
      rw [List.getD_eq_getElem _ _ hb'] at hn
      exact ⟨l, hl, _, List.getElem_mem hb', hn⟩
  rw [process3_iff', hneg]
  simp only [process_iff, hc, SsqBatch.at, Option.isNone_map]
  constructor
  · rintro ⟨h1, h2, h3, h4, h5⟩ b hb
    exact ⟨h1, fun h => h2 ⟨b, hb, h⟩, h3, h4, h5⟩
  · intro h
    obtain ⟨h1, -, h3, h4, h5⟩ := h 0 hpos
    exact ⟨h1, fun ⟨b, hb, hw⟩ => (h b hb).2.1 hw, h3, h4, h5⟩

theorem ssqueeze3_iff {q : SsqBatch} (hq : q.Consistent) {g : Squeezing}
    (hg : applySqueezing3 q = q.Ws.map (applySqueezing g q.base.M))
    (hc : ∀ (m : MapRange) (b : Bool) (t : Transform), checkSsqueezingArgs false g m b none none false t =
      checkSsqueezingArgs false q.base.squeezing m b none none false t) (Txs : List (ℤ → ℕ → ℂ)) (f : List ℝ) :
    ssqueeze3 q = .ok (Txs, f) ↔ Txs.length = q.Ws.length ∧
      ∀ b < q.Ws.length, ssqueeze { q.at b with squeezing := g } = .ok (Txs.getD b fun _ _ => 0, f) := by
  have hpos : 0 < q.Ws.length := List.length_pos_iff.2 hq.1
  have hsc : ∀ b, ssqScales { q.at b with squeezing := g } = ssqScales q.base := fun _ => rfl
  have hfr : ∀ b, ssqFreqsOf { q.at b with squeezing := g } = ssqFreqsOf q.base := fun _ => rfl
  have hW : ∀ b < q.Ws.length, (applySqueezing3 q).getD b (fun _ _ => 0) = applySqueezing g q.base.M (q.at b).Wx := by
    intro b hb
    rw [hg, List.getD_eq_getElem _ _ (by simpa using hb), List.getElem_map]
    simp only [SsqBatch.at, List.getD_eq_getElem _ _ hb]
  have hlen : (applySqueezing3 q).length = q.Ws.length := by rw [hg, List.length_map]
  have hker : ∀ b W v c ls, ssqKernel { q.at b with squeezing := g } W v c ls = ssqKernel (q.at b) W v c ls :=
    fun _ _ _ _ _ => rfl
  constructor
  · intro h
    unfold ssqueeze3 at h
    obtain ⟨dt, h1, h⟩ := bind_ok h
    obtain ⟨sc, h2, h⟩ := bind_ok h
    obtain ⟨fr, h3, h⟩ := bind_ok h
    simp only at h
    obtain ⟨T, h4, h⟩ := bind_ok h
    simp only [pure_eq_ok, Except.ok.injEq, Prod.mk.injEq] at h
    obtain ⟨rfl, rfl⟩ := h
    obtain ⟨l, e⟩ := mapM_getD (fun _ _ => 0) h4
    rw [List.length_range, hlen] at l
    refine ⟨l, fun b hb => ?_⟩
    have := e b (by rw [List.length_range, hlen]; exact hb)
    rw [List.getElem_range, if_pos (hq.reaches hb)] at this
    obtain ⟨c, hcst, this⟩ := bind_ok this
    obtain ⟨ls, hls, this⟩ := bind_ok this
    rw [hW b hb] at this
    unfold ssqueeze
    rw [(process3_iff hq hc dt).1 h1 b hb, ok_bind, hsc, h2, ok_bind, hfr, h3, ok_bind,
      show ssqConst ({ q.at b with squeezing := g } : SsqArgs).transform sc.1 sc.2 fr.1 = .ok c from hcst, ok_bind, hls,
      ok_bind, hker, show applySqueezing ({ q.at b with squeezing := g } : SsqArgs).squeezing
        ({ q.at b with squeezing := g } : SsqArgs).M ({ q.at b with squeezing := g } : SsqArgs).Wx =
        applySqueezing g q.base.M (q.at b).Wx from rfl, this]
    rfl
  · rintro ⟨l, h⟩
    have key : ∃ dt sc fr c ls, (∀ b < q.Ws.length, ssqProcessArgs { q.at b with squeezing := g } = .ok dt) ∧
        ssqScales q.base = .ok sc ∧ ssqFreqsOf q.base dt sc.1 sc.2 = .ok fr ∧
        ssqConst q.base.transform sc.1 sc.2 fr.1 = .ok c ∧ fr.2.isLog = .ok ls ∧
        (∀ b < q.Ws.length, ssqKernel (q.at b) (applySqueezing g q.base.M (q.at b).Wx) fr.1 c ls =
          .ok (Txs.getD b fun _ _ => 0)) ∧
        f = if ssqReverses q.base.transform q.base.flipud then fr.1.reverse else fr.1 := by
      obtain ⟨dt, sc, fr, c, ls, h1, h2, h3, h4, h5, h6, h7⟩ := ssqueeze_ok (h 0 hpos)
      have hdt : ∀ b < q.Ws.length, ssqProcessArgs { q.at b with squeezing := g } = .ok dt := by
        intro b hb
        obtain ⟨dt', -, -, -, -, h1', -⟩ := ssqueeze_ok (h b hb)
        have e : ∀ {a a' : SsqArgs} {x y : ℝ}, a.fs = a'.fs → a.t = a'.t → a.N = a'.N → ssqProcessArgs a = .ok x →
            ssqProcessArgs a' = .ok y → x = y := by
          intro a a' x y e1 e2 e3 ha ha'
          obtain ⟨-, -, -, -, r, hr⟩ := (process_iff _ _).1 ha
          obtain ⟨-, -, -, -, r', hr'⟩ := (process_iff _ _).1 ha'
          rw [e1, e2, e3, hr'] at hr
          simp only [Except.ok.injEq, Rate.fin.injEq] at hr
          exact hr.2.symm
        rw [h1', e (a := { q.at 0 with squeezing := g }) (a' := { q.at b with squeezing := g }) rfl rfl rfl h1 h1']
      refine ⟨dt, sc, fr, c, ls, hdt, by rw [← hsc 0]; exact h2, by rw [← hfr 0]; exact h3, h4, h5, fun b hb => ?_, h7⟩
      obtain ⟨dt', sc', fr', c', ls', h1', h2', h3', h4', h5', h6', -⟩ := ssqueeze_ok (h b hb)
      rw [hdt b hb, Except.ok.injEq] at h1'
      subst h1'
      rw [hsc, ← hsc 0, h2, Except.ok.injEq] at h2'
      subst h2'
      rw [hfr, ← hfr 0, h3, Except.ok.injEq] at h3'
      subst h3'
      have h4'' : ssqConst q.base.transform sc.1 sc.2 fr.1 = .ok c' := h4'
      have h4 : ssqConst q.base.transform sc.1 sc.2 fr.1 = .ok c := h4
      rw [h4, Except.ok.injEq] at h4''
      subst h4''
      rw [h5, Except.ok.injEq] at h5'
      subst h5'
      exact h6'
    obtain ⟨dt, sc, fr, c, ls, h1, h2, h3, h4, h5, h6, h7⟩ := key
    unfold ssqueeze3
    rw [(process3_iff hq hc dt).2 h1, ok_bind, h2, ok_bind, h3, ok_bind]
    simp only
    have : (List.range (applySqueezing3 q).length).mapM (fun b =>
        if q.reaches b = true then do
          let const ← ssqConst q.base.transform sc.1 sc.2 fr.1
          let ls ← fr.2.isLog
          ssqKernel (q.at b) ((applySqueezing3 q).getD b fun _ _ => 0) fr.1 const ls
        else .ok fun _ _ => 0) = .ok Txs := by
      rw [mapM_ok, List.forall₂_iff_get]
      refine ⟨by rw [List.length_range, hlen, l], fun b hb hb' => ?_⟩
      have hb2 : b < q.Ws.length := by rw [← l]; exact hb'
      simp only [List.get_eq_getElem, List.getElem_range]
      rw [if_pos (hq.reaches hb2), h4, ok_bind, h5, ok_bind, hW b hb2, h6 b hb2, List.getD_eq_getElem _ _ hb']
    rw [this, h7]
    rfl

/-- Squeezing an entire batch is squeezing each signal. -/
def C102_full : Prop := ∀ q : SsqBatch, q.Consistent → (∀ f, q.base.squeezing = .fn f → q.fn3 q.Ws = q.Ws.map f) →
  ∀ Txs f, ssqueeze3 q = .ok (Txs, f) ↔ Txs.length = q.Ws.length ∧
    ∀ b < q.Ws.length, ssqueeze (q.at b) = .ok (Txs.getD b fun _ _ => 0, f)

/-- **C102, partial.** `ssqueeze` of a 3D array succeeds exactly if it succeeds on each signal's 2D arrays, with the very
transforms and frequencies these give. For every transform, frequency and scale choice, direction and phase input, and every
squeezing but 'lebesgue'; a function must treat signals alike. -/
theorem C102_ssqueeze_partial (q : SsqBatch) (hq : q.Consistent)
    (hf : ∀ f, q.base.squeezing = .fn f → q.fn3 q.Ws = q.Ws.map f) (hl : q.base.squeezing ≠ .lebesgue)
    (Txs : List (ℤ → ℕ → ℂ)) (f : List ℝ) :
    ssqueeze3 q = .ok (Txs, f) ↔ Txs.length = q.Ws.length ∧
      ∀ b < q.Ws.length, ssqueeze (q.at b) = .ok (Txs.getD b fun _ _ => 0, f) := by
  refine ssqueeze3_iff hq (g := q.base.squeezing) ?_ (fun _ _ _ => rfl) Txs f
  unfold applySqueezing3 applySqueezing
  cases h : q.base.squeezing with
  | lebesgue => exact absurd h hl
  | fn f => simpa using hf f h
  | abs => rfl
  | _ => exact (List.map_id _).symm

/-- **C102, 'lebesgue'.** Each cell of each signal counts `1/B`, where `B` is the number of *signals*, instead of one over
the number of its rows. -/
theorem C102_lebesgue (q : SsqBatch) (hq : q.Consistent) (hl : q.base.squeezing = .lebesgue)
    (Txs : List (ℤ → ℕ → ℂ)) (f : List ℝ) :
    ssqueeze3 q = .ok (Txs, f) ↔ Txs.length = q.Ws.length ∧
      ∀ b < q.Ws.length, ssqueeze { q.at b with squeezing := .fn fun _ _ _ => 1 / (q.Ws.length : ℂ) } =
        .ok (Txs.getD b fun _ _ => 0, f) := by
  refine ssqueeze3_iff hq ?_ (fun _ _ _ => ?_) Txs f
  · unfold applySqueezing3
    rw [hl]
    rfl
  · rw [hl]
    rfl

/-- **C102 refuted**, with a batch of one signal: two STFT rows at frequencies 0 and 1, all cells of phase 0. The signal alone
gives `1/2 + 1/2` in row 0; in a batch of one it gives `1 + 1`. -/
theorem C102_refuted : ¬ C102_full := by
  intro H
  set w0 : ℕ → ℕ → Phase := fun _ _ => .fin 0 with hw0
  set W : ℕ → ℕ → ℂ := fun _ _ => 1 with hW
  set q : SsqBatch :=
    { base := { ex01 .lebesgue with w := some w0, Wx := W, dWx := none, gamma := some (1 / 2) }
      Ws := [W], ws := some [w0], dWs := none, fn3 := id } with hq
  have hneg : ∀ w', some w0 = some w' → ¬ hasNegative 2 1 w' := by
    rintro w' h ⟨i, -, j, -, x, hx, hlt⟩
    cases h
    simp only [hw0, Phase.fin.injEq] at hx
    linarith
  have hcons : q.Consistent := ⟨by simp [hq], by intro l hl; simp [hq] at hl; simp [hq, ← hl], by intro l hl; simp [hq] at hl⟩
  have hat : q.at 0 = { ex01 .lebesgue with w := some w0, Wx := W, dWx := none, gamma := some (1 / 2) } := rfl
  set g : Squeezing := .fn fun _ _ _ => 1 / (q.Ws.length : ℂ) with hg
  obtain ⟨Tx, h1⟩ := ex01_ok (sq := g) (Or.inr (Or.inr (Or.inr ⟨_, rfl⟩))) (some w0) W W none hneg (by simp)
  have h3 : ssqueeze3 q = .ok ([Tx], [0, 1]) := by
    rw [C102_lebesgue q hcons rfl]
    refine ⟨rfl, fun b hb => ?_⟩
    have : b = 0 := by simp [hq] at hb; exact hb
    subst this
    rw [hat]
    exact h1
  have h2 := ((H q hcons (by intro f hf; simp [hq, ex01] at hf) [Tx] [0, 1]).1 h3).2 0 (by simp [hq])
  rw [hat] at h2
  simp only [List.getD_cons_zero] at h2
  obtain ⟨c, row, hc, -, hn, hr⟩ := C27_linear_partial _ Tx _ h1 (Or.inl rfl) (Or.inr rfl) 0 1 uni01 rfl (le_refl 2)
    eps64_le_one
  obtain ⟨c', row', hc', -, hn', hr'⟩ := C27_linear_partial _ Tx _ h2 (Or.inl rfl) (Or.inr rfl) 0 1 uni01 rfl (le_refl 2)
    eps64_le_one
  have r0 : row 0 = 0 := by
    obtain ⟨hk, _⟩ := hn 0
    simp only [List.length_cons, List.length_nil] at hk
    have := nearest01 (hn 0) (by interval_cases row 0 <;> simp) (by simpa using hk)
    exact_mod_cast this.symm
  have r0' : row' 0 = 0 := by
    obtain ⟨hk, _⟩ := hn' 0
    simp only [List.length_cons, List.length_nil] at hk
    have := nearest01 (hn' 0) (by interval_cases row' 0 <;> simp) (by simpa using hk)
    exact_mod_cast this.symm
  have a1 := hr 0 (by simp [ex01]) 0 (by simp [ex01])
  have a2 := hr' 0 (by simp [ex01]) 0 (by simp [ex01])
  have hc0 : c 0 = 1 := hc rfl 0 (by simp [ex01])
  have hc1 : c 1 = 1 := hc rfl 1 (by simp [ex01])
  have hc0' : c' 0 = 1 := hc' rfl 0 (by simp [ex01])
  have hc1' : c' 1 = 1 := hc' rfl 1 (by simp [ex01])
  rw [a1] at a2
  simp only [Spec.squeezed, ex01, Finset.sum_range_succ, Finset.range_zero, Finset.sum_empty, Spec.usedPhase, hw0, r0, r0',
    hg, applySqueezing, hc0, hc1, hc0', hc1', hq, List.length_singleton] at a2
  norm_num at a2

/-! ## `ssq_cwt` and `ssq_stft` -/

/-- **C102, `ssq_cwt`.** A successful `ssq_cwt` of a 2D array (order 0) returns for each signal exactly what `ssq_cwt` returns
for it alone: synchrosqueezed transform, transform, frequencies, scales and derivative. -/
theorem C102_ssq_cwt (N : ℕ) (X : List (List ℝ)) (hne : X ≠ []) (hX : ∀ x ∈ X, x.length = N) (a : SsqCwtArgs)
    (fn3 : List (ℕ → ℕ → ℂ) → List (ℕ → ℕ → ℂ)) (hf : ∀ f, a.squeezing = .fn f → ∀ l, fn3 l = l.map f)
    (hl : a.squeezing ≠ .lebesgue) (o : SsqCwtOut2) (h : ssqCwt2 N X a fn3 = .ok o) :
    o.Tx.length = X.length ∧ o.Wx.length = X.length ∧ o.dWx.length = X.length ∧
    ∀ b (hb : b < X.length), ssqCwt X[b] a =
      .ok ⟨o.Tx.getD b fun _ _ => 0, o.Wx.getD b [], o.freqs, o.scales, o.dWx.getD b []⟩ := by
  unfold ssqCwt2 at h
  split at h
  · simp at h
  next hg =>
  obtain ⟨u, hu, h⟩ := bind_ok h
  obtain ⟨r, hr, h⟩ := bind_ok h
  obtain ⟨sc, hsc, h⟩ := bind_ok h
  obtain ⟨W, hW, h⟩ := bind_ok h
  obtain ⟨T, hT, h⟩ := bind_ok h
  simp only [Except.ok.injEq] at h
  subst h
  obtain ⟨l1, l2, e⟩ := C71_batched N X hX _ W.1 W.2.1 W.2.2 hW
  set q : SsqBatch :=
    { base := a.ssqArgs r.1 sc.2.1 W.2.1 N [] []
      Ws := W.1.map fun M => fun i j => (M.getD i []).getD j 0
      ws := none
      dWs := some (W.2.2.map fun M => fun i j => (M.getD i []).getD j 0)
      fn3 := fn3 } with hq
  have hc : q.Consistent := by
    refine ⟨?_, by intro l hl; simp [hq] at hl, ?_⟩
    · intro h0
      simp only [hq, List.map_eq_nil_iff] at h0
      rw [h0] at l1
      exact hne (List.length_eq_zero_iff.1 l1.symm)
    · intro l hl
      simp only [hq, Option.some.injEq] at hl
      rw [← hl]
      simp [hq, l1, l2]
  have hqlen : q.Ws.length = X.length := by simp [hq, l1]
  obtain ⟨l3, e3⟩ := (C102_ssqueeze_partial q hc (fun f hf' => hf f hf' _) hl T.1 T.2).1 hT
  rw [hqlen] at l3 e3
  refine ⟨l3, l1, l2, fun b hb => ?_⟩
  have hxl := hX _ (List.getElem_mem hb)
  have hg' : a.getW = false := by simpa using hg
  have hat : q.at b = a.ssqArgs r.1 sc.2.1 W.2.1 N (W.1.getD b []) (W.2.2.getD b []) := by
    simp only [hq, SsqBatch.at, SsqCwtArgs.ssqArgs, hg', Option.map_none, Option.map_some, Bool.false_eq_true, if_false]
    congr 1
    · rw [List.getD_eq_getElem _ _ (by simp [l1]; exact hb), List.getElem_map, List.getD_eq_getElem _ _ (by omega)]
    · rw [List.getD_eq_getElem _ _ (by simp [l2]; exact hb), List.getElem_map, List.getD_eq_getElem _ _ (by omega)]
  have e3b := e3 b hb
  rw [hat] at e3b
  unfold ssqCwt
  rw [hu, ok_bind, hxl, hr, ok_bind, hsc, ok_bind, e b hb, ok_bind]
  simp only
  rw [e3b]
  rfl

/-- With `get_w=True` a batch is refused, before anything else. -/
theorem C102_get_w (N : ℕ) (X : List (List ℝ)) (fn3 : List (ℕ → ℕ → ℂ) → List (ℕ → ℕ → ℂ)) :
    (∀ a : SsqCwtArgs, a.getW = true → ssqCwt2 N X a fn3 = .error .notImplementedError) ∧
    ∀ (lib : WinLib) (tiny : ℝ) (a : SsqStftArgs), a.getW = true → ssqStft2 lib tiny N X a fn3 = .error .notImplementedError := by
  refine ⟨fun a h => ?_, fun lib tiny a h => ?_⟩
  · unfold ssqCwt2; rw [if_pos h]
  · unfold ssqStft2; rw [if_pos h]

/-- **C102, success of `ssq_cwt`.** A batch is accepted if each of its signals is. -/
theorem C102_ssq_cwt_succeeds (N : ℕ) (hN : 0 < N) (X : List (List ℝ)) (hne : X ≠ []) (hX : ∀ x ∈ X, x.length = N)
    (a : SsqCwtArgs) (t : Option PadType) (ht : a.padtype = t.map padName) (hg : a.getW = false)
    (fn3 : List (ℕ → ℕ → ℂ) → List (ℕ → ℕ → ℂ)) (hf : ∀ f, a.squeezing = .fn f → ∀ l, fn3 l = l.map f)
    (hl : a.squeezing ≠ .lebesgue) (h : ∀ x ∈ X, ∃ o, ssqCwt x a = .ok o) : ∃ o, ssqCwt2 N X a fn3 = .ok o := by
  have key : ∀ x ∈ X, ∃ u r sc W T,
      checkSsqueezingArgs false a.squeezing a.maprange true (some .trig) a.difforder a.getW .cwt = .ok u ∧
      cwtDt a.fs a.t N = .ok r ∧
      processScales a.scales N (some a.wavelet.sw) (ssqCwtNv a) true a.downsample = .ok sc ∧
      cwt x (a.cwtArgs r.1 sc.1) = .ok W ∧ ssqueeze (a.ssqArgs r.1 sc.2.1 W.2.1 N W.1 W.2.2) = .ok T := by
    intro x hx
    obtain ⟨o, ho⟩ := h x hx
    unfold ssqCwt at ho
    rw [hX x hx] at ho
    obtain ⟨u, hu, ho⟩ := bind_ok ho
    obtain ⟨r, hr, ho⟩ := bind_ok ho
    obtain ⟨sc, hsc, ho⟩ := bind_ok ho
    obtain ⟨W, hW, ho⟩ := bind_ok ho
    obtain ⟨T, hT, ho⟩ := bind_ok ho
    exact ⟨u, r, sc, W, T, hu, hr, hsc, hW, hT⟩
  obtain ⟨x0, hx0⟩ := List.exists_mem_of_ne_nil _ hne
  obtain ⟨u, r, sc, W0, T0, hu, hr, hsc, hW0, hT0⟩ := key x0 hx0
  obtain ⟨Ws, dWs, hW⟩ := C71_succeeds N hN X hX (a.cwtArgs r.1 sc.1) t ht x0 hx0 W0.1 W0.2.1 W0.2.2 hW0
  obtain ⟨l1, l2, e⟩ := C71_batched N X hX _ Ws W0.2.1 dWs hW
  set q : SsqBatch :=
    { base := a.ssqArgs r.1 sc.2.1 W0.2.1 N [] []
      Ws := Ws.map fun M => fun i j => (M.getD i []).getD j 0
      ws := none
      dWs := some (dWs.map fun M => fun i j => (M.getD i []).getD j 0)
      fn3 := fn3 } with hq
  have hc : q.Consistent := by
    refine ⟨?_, by intro l hl; simp [hq] at hl, ?_⟩
    · intro h0
      simp only [hq, List.map_eq_nil_iff] at h0
      rw [h0] at l1
      exact hne (List.length_eq_zero_iff.1 l1.symm)
    · intro l hl
      simp only [hq, Option.some.injEq] at hl
      rw [← hl]
      simp [hq, l1, l2]
  have hqlen : q.Ws.length = X.length := by simp [hq, l1]
  have hat : ∀ b < X.length, q.at b = a.ssqArgs r.1 sc.2.1 W0.2.1 N (Ws.getD b []) (dWs.getD b []) := by
    intro b hb
    simp only [hq, SsqBatch.at, SsqCwtArgs.ssqArgs, hg, Option.map_none, Option.map_some, Bool.false_eq_true, if_false]
    congr 1
    · rw [List.getD_eq_getElem _ _ (by simp [l1]; exact hb), List.getElem_map, List.getD_eq_getElem _ _ (by omega)]
    · rw [List.getD_eq_getElem _ _ (by simp [l2]; exact hb), List.getElem_map, List.getD_eq_getElem _ _ (by omega)]
  have hone : ∀ b < X.length, ∃ T, ssqueeze (q.at b) = .ok T := by
    intro b hb
    obtain ⟨u', r', sc', W', T', hu', hr', hsc', hW', hT'⟩ := key X[b] (List.getElem_mem hb)
    rw [hr, Except.ok.injEq] at hr'
    subst hr'
    rw [hsc, Except.ok.injEq] at hsc'
    subst hsc'
    rw [e b hb, Except.ok.injEq] at hW'
    rw [← hW'] at hT'
    exact ⟨T', by rw [hat b hb]; exact hT'⟩
  have hfreq : ∀ b < X.length, ∀ T T', ssqueeze (q.at 0) = .ok T → ssqueeze (q.at b) = .ok T' → T.2 = T'.2 := by
    intro b hb T T' h0 h1
    obtain ⟨dt, s, fr, c, ls, g1, g2, g3, -, -, -, g7⟩ := ssqueeze_ok (Tx := T.1) (f := T.2) h0
    obtain ⟨dt', s', fr', c', ls', g1', g2', g3', -, -, -, g7'⟩ := ssqueeze_ok (Tx := T'.1) (f := T'.2) h1
    obtain ⟨-, -, -, -, R, hR⟩ := (process_iff _ _).1 g1
    obtain ⟨-, -, -, -, R', hR'⟩ := (process_iff _ _).1 g1'
    have hR'' : processFsT (q.at 0).fs (q.at 0).t (q.at 0).N = .ok (.fin R' dt') := hR'
    rw [hR, Except.ok.injEq, Rate.fin.injEq] at hR''
    obtain ⟨-, rfl⟩ := hR''
    have g2'' : ssqScales (q.at 0) = .ok s' := g2'
    rw [g2, Except.ok.injEq] at g2''
    subst g2''
    have g3'' : ssqFreqsOf (q.at 0) dt s.1 s.2 = .ok fr' := g3'
    rw [g3, Except.ok.injEq] at g3''
    subst g3''
    rw [g7, g7']
    rfl
  have hpos : 0 < X.length := List.length_pos_iff.2 hne
  obtain ⟨T, hT⟩ := hone 0 hpos
  have hall : ∀ b, ∃ T' : ℤ → ℕ → ℂ, b < X.length → ssqueeze (q.at b) = .ok (T', T.2) := by
    intro b
    by_cases hb : b < X.length
    · obtain ⟨T', hT'⟩ := hone b hb
      refine ⟨T'.1, fun _ => ?_⟩
      rw [hT', hfreq b hb T T' hT hT']
    · exact ⟨fun _ _ => 0, fun h => absurd h hb⟩
  choose Tb hTb using hall
  have hs3 : ssqueeze3 q = .ok ((List.range X.length).map Tb, T.2) := by
    rw [C102_ssqueeze_partial q hc (fun f hf' => hf f hf' _) hl, hqlen]
    refine ⟨by simp, fun b hb => ?_⟩
    rw [hTb b hb, List.getD_eq_getElem _ _ (by simpa using hb), List.getElem_map, List.getElem_range]
  unfold ssqCwt2
  rw [if_neg (by simp [hg]), hu, ok_bind, hr, ok_bind, hsc, ok_bind, hW, ok_bind]
  simp only
  rw [hs3]
  exact ⟨_, rfl⟩

/-- Non-vacuity: a batch of two signals of four samples. -/
example : ∃ o, ssqCwt2 4 [[3, 1, 4, 1], [0, 1, 0, -5]] (exSsq (some .reflect)) id = .ok o ∧
    ∃ o', ssqCwt [0, 1, 0, -5] (exSsq (some .reflect)) = .ok o' ∧ o'.freqs = o.freqs := by
  have hX : ∀ x ∈ ([[3, 1, 4, 1], [0, 1, 0, -5]] : List (List ℝ)), x.length = 4 := by simp
  obtain ⟨o, ho⟩ := C102_ssq_cwt_succeeds 4 (by norm_num) [[3, 1, 4, 1], [0, 1, 0, -5]] (by simp) hX (exSsq (some .reflect))
    (some .reflect) rfl rfl id (by intro f hf; simp [exSsq] at hf) (by simp [exSsq])
    fun x hx => by
      obtain ⟨o, h, -⟩ := exSsq_ok (some .reflect) x (by rw [hX x hx]; norm_num)
      exact ⟨o, h⟩
  have := (C102_ssq_cwt 4 _ (by simp) hX _ id (by intro f hf; simp [exSsq] at hf) (by simp [exSsq]) o ho).2.2.2 1 (by simp)
  exact ⟨o, ho, _, this, rfl⟩

theorem pySlice_len {α : Type} {l m : List α} (h : l.length = m.length) (a b : Option ℤ) :
    (pySlice l a b).length = (pySlice m a b).length := by
  unfold pySlice
  simp only [List.length_take, List.length_drop, h]

theorem padNumpy_len {t : PadType} {x y : List ℝ} (h : x.length = y.length) {n1 n2 : ℤ} {xp yp : List ℝ}
    (hx : padNumpy t x n1 n2 = .ok xp) (hy : padNumpy t y n1 n2 = .ok yp) : xp.length = yp.length := by
  have hi : ∀ (idx : (N : ℕ) → 0 < N → ℤ → Fin N) (z zp : List ℝ), npPadIdx idx z n1 n2 = .ok zp →
      zp.length = if 0 < z.length then n1.toNat + z.length + n2.toNat else 0 := by
    intro idx z zp hz
    unfold npPadIdx at hz
    split at hz
    · simp at hz
    split at hz
    · next h0 =>
      simp only [Except.ok.injEq] at hz
      rw [← hz, if_pos h0]; simp
    · next h0 =>
      split at hz
      · simp only [Except.ok.injEq] at hz
        rw [← hz, if_neg h0]; rfl
      · simp at hz
  cases t with
  | zero =>
    simp only [padNumpy, npPadZero] at hx hy
    split at hx
    · simp at hx
    next h0 =>
    rw [if_neg h0] at hy
    simp only [Except.ok.injEq] at hx hy
    rw [← hx, ← hy]
    simp [h]
  | symmetric =>
    simp only [padNumpy, Except.ok.injEq] at hx hy
    rw [← hx, ← hy]
    unfold padSymmetric pyFrom pyUpto
    simp only [List.length_append, h]
    rw [pySlice_len (l := x.reverse) (m := y.reverse) (by simp [h]), pySlice_len (l := x.reverse) (m := y.reverse) (by simp [h])]
  | reflect => rw [hi _ _ _ hx, hi _ _ _ hy, h]
  | replicate => rw [hi _ _ _ hx, hi _ _ _ hy, h]
  | wrap => rw [hi _ _ _ hx, hi _ _ _ hy, h]

theorem buffer_len {x : List ℝ} {n : ℕ} {ov : ℤ} {md : Bool} {S : List (List ℝ)} (h : buffer x n ov md = .ok S) :
    ∃ hop, bufferParams x.length n ov = .ok (hop, S.length) := by
  unfold buffer at h
  obtain ⟨⟨hop, k⟩, hk, h⟩ := bind_ok h
  refine ⟨hop, ?_⟩
  rw [hk]
  simp only at h
  have fold : ∀ (l : List ℕ) (out S : List (List ℝ)),
      l.foldlM (fun out i => do
        let ws ← bufferIter x n hop (bufferS20 n) (bufferS21 n) md i
        return ws.foldl applyWrite out) out = (.ok S : Py _) → S.length = out.length := by
    intro l
    induction l with
    | nil => intro out S h; simp [List.foldlM, pure_eq_ok] at h; rw [h]
    | cons i l ih =>
      intro out S h
      rw [List.foldlM_cons] at h
      obtain ⟨o, ho, h⟩ := bind_ok h
      obtain ⟨ws, -, ho⟩ := bind_ok ho
      simp only [pure_eq_ok, Except.ok.injEq] at ho
      rw [ih _ _ h, ← ho]
      clear * -
      induction ws generalizing out with
      | nil => rfl
      | cons w ws ih => rw [List.foldl_cons, ih]; simp [applyWrite]
  have := fold _ _ _ h
  rw [this]
  simp [bufferZeros]

theorem stft_len {lib : WinLib} {tiny : ℝ} {x y : List ℝ} (hxy : x.length = y.length) {a : StftArgs}
    {n n' : ℕ} {S dS S' dS' : List (List ℂ)} (hx : stft lib tiny x a = .ok (n, S, dS))
    (hy : stft lib tiny y a = .ok (n', S', dS')) : S.length = S'.length := by
  have core : ∀ {xp w dw : List ℝ} {n hop : ℕ} {fs : ℝ} {md : Bool} {r : List (List ℂ) × List (List ℂ)},
      stftCore xp w dw n hop fs md = .ok r → ∃ h, bufferParams xp.length n ((n : ℤ) - hop) = .ok (h, r.1.length) := by
    intro xp w dw n hop fs md r h
    unfold stftCore at h
    obtain ⟨A, hA, h⟩ := bind_ok h
    obtain ⟨B, -, h⟩ := bind_ok h
    simp only at h
    obtain ⟨A', hA', h⟩ := bind_ok h
    obtain ⟨B', -, h⟩ := bind_ok h
    split at h
    · exact absurd h (by simp [bind, Except.bind])
    simp only [pure_eq_ok, Except.ok.injEq] at h
    subst h
    obtain ⟨hp, hh⟩ := buffer_len hA
    refine ⟨hp, ?_⟩
    rw [hh, List.length_map, (mapM_getD [] hA').1]
  unfold stft at hx hy
  simp only [hxy] at hx
  obtain ⟨m, hm, hx⟩ := bind_ok hx
  obtain ⟨w, hw, hx⟩ := bind_ok hx
  obtain ⟨u, hu, hx⟩ := bind_ok hx
  obtain ⟨p, hp, hx⟩ := bind_ok hx
  obtain ⟨r, hr, hx⟩ := bind_ok hx
  simp only at hy
  rw [hm, ok_bind, hw, ok_bind, hu, ok_bind] at hy
  obtain ⟨p', hp', hy⟩ := bind_ok hy
  obtain ⟨r', hr', hy⟩ := bind_ok hy
  simp only [pure_eq_ok, Except.ok.injEq, Prod.mk.injEq] at hx hy
  rw [← hx.2.1, ← hy.2.1]
  have hpl : p.1.length = p'.1.length := by
    unfold padsignal at hp hp'
    obtain ⟨t, ht, hp⟩ := bind_ok hp
    rw [ht, ok_bind] at hp'
    rw [hxy] at hp
    rcases hq : padWidths y.length (some ((y.length : ℤ) + m - 1)) with ⟨k, n1, n2⟩
    rw [hq] at hp hp'
    simp only [if_true] at hp hp'
    obtain ⟨xp, hxp, hp⟩ := bind_ok hp
    obtain ⟨yp, hyp, hp'⟩ := bind_ok hp'
    simp only [pure_eq_ok, Except.ok.injEq] at hp hp'
    rw [← hp, ← hp']
    exact padNumpy_len hxy hxp hyp
  obtain ⟨h1, e1⟩ := core hr
  obtain ⟨h2, e2⟩ := core hr'
  rw [hpl, e2] at e1
  simp only [Except.ok.injEq, Prod.mk.injEq] at e1
  exact e1.2.symm

/-- **C102, `ssq_stft`.** A successful `ssq_stft` of a 2D array returns for each signal exactly what `ssq_stft` returns for it
alone: synchrosqueezed transform, transform and both frequency vectors. -/
theorem C102_ssq_stft (lib : WinLib) (tiny : ℝ) (N : ℕ) (X : List (List ℝ)) (hne : X ≠ []) (hX : ∀ x ∈ X, x.length = N)
    (a : SsqStftArgs) (fn3 : List (ℕ → ℕ → ℂ) → List (ℕ → ℕ → ℂ)) (hf : ∀ f, a.squeezing = .fn f → ∀ l, fn3 l = l.map f)
    (hl : a.squeezing ≠ .lebesgue) (Txs : List (ℤ → ℕ → ℂ)) (Ss : List (List (List ℂ))) (f Sfs : List ℝ)
    (h : ssqStft2 lib tiny N X a fn3 = .ok (Txs, Ss, f, Sfs)) :
    Txs.length = X.length ∧ Ss.length = X.length ∧
    ∀ b (hb : b < X.length), ssqStft lib tiny X[b] a = .ok (Txs.getD b fun _ _ => 0, Ss.getD b [], f, Sfs) := by
  unfold ssqStft2 at h
  split at h
  · simp at h
  next hg =>
  obtain ⟨rt, hrt, h⟩ := bind_ok h
  cases rt with
  | infinite => simp at h
  | fin fs dt =>
  simp only at h
  obtain ⟨u, hu, h⟩ := bind_ok h
  obtain ⟨v, hv, h⟩ := bind_ok h
  obtain ⟨s, hs, h⟩ := bind_ok h
  obtain ⟨T, hT, h⟩ := bind_ok h
  simp only [Except.ok.injEq, Prod.mk.injEq] at h
  obtain ⟨rfl, rfl, rfl, rfl⟩ := h
  obtain ⟨l1, l2, e⟩ := C101_batched lib tiny N X hX _ s.1 s.2.1 s.2.2 hs
  set q : SsqBatch :=
    { base := ssqStftCall a fs (s.1 / 2 + 1) (s.2.1.headD []) (s.2.2.headD [])
      Ws := s.2.1.map fun S => fun i j => (S.getD j []).getD i 0
      ws := none
      dWs := some (s.2.2.map fun dS => fun i j => (dS.getD j []).getD i 0)
      fn3 := fn3 } with hq
  have hc : q.Consistent := by
    refine ⟨?_, by intro l hl; simp [hq] at hl, ?_⟩
    · intro h0
      simp only [hq, List.map_eq_nil_iff] at h0
      rw [h0] at l1
      exact hne (List.length_eq_zero_iff.1 l1.symm)
    · intro l hl
      simp only [hq, Option.some.injEq] at hl
      rw [← hl]
      simp [hq, l1, l2]
  have hqlen : q.Ws.length = X.length := by simp [hq, l1]
  obtain ⟨l3, e3⟩ := (C102_ssqueeze_partial q hc (fun f hf' => hf f hf' _) hl T.1 T.2).1 hT
  rw [hqlen] at l3 e3
  refine ⟨l3, l1, fun b hb => ?_⟩
  have hxl := hX _ (List.getElem_mem hb)
  have hg' : a.getW = false := by simpa using hg
  have hpos : 0 < X.length := by omega
  have hcols : (s.2.1.headD []).length = (s.2.1.getD b []).length := by
    have : s.2.1.headD [] = s.2.1.getD 0 [] := by cases s.2.1 <;> rfl
    rw [this]
    exact stft_len (by rw [hX _ (List.getElem_mem hpos), hxl]) (e 0 hpos) (e b hb)
  have hat : q.at b = ssqStftCall a fs (s.1 / 2 + 1) (s.2.1.getD b []) (s.2.2.getD b []) := by
    simp only [hq, SsqBatch.at, ssqStftCall, hg', Option.map_none, Option.map_some, Bool.false_eq_true, if_false, hcols]
    congr 1
    · rw [List.getD_eq_getElem _ _ (by simp [l1]; exact hb), List.getElem_map, List.getD_eq_getElem _ _ (by omega)]
    · rw [List.getD_eq_getElem _ _ (by simp [l2]; exact hb), List.getElem_map, List.getD_eq_getElem _ _ (by omega)]
  have e3b := e3 b hb
  rw [hat] at e3b
  unfold ssqStft
  rw [hxl, hrt, ok_bind]
  simp only
  rw [hu, ok_bind, hv, ok_bind, e b hb, ok_bind]
  simp only
  rw [e3b]
  rfl

/-! ## Higher orders -/

/-- With several orders or a positive one, a batch is transformed like its signals. -/
def C103_full : Prop := ∀ (N : ℕ) (X : List (List ℝ)), 0 < N → (∀ x ∈ X, x.length = N) → ∀ (a : SsqFullArgs) (t : Option PadType),
  a.padtype = t.map padName → (∀ name, a.scales ≠ .str name) → ∀ (isSeq : Bool) (ks : List ℤ), Spec.Orders a.order isSeq ks →
  ∀ (fs : ℝ) (Ws dWs : List (List (List ℂ))), ssqHigher2 N X a fs isSeq = .ok (Ws, dWs) →
  ∀ b (hb : b < X.length) W sc st dW, ssqHigher X[b] a fs isSeq = .ok (W, sc, st, dW) →
    Ws.getD b [] = W ∧ dWs.getD b [] = dW

/-- What happens instead: the derivative of each signal is the right one, but of its padded transform (of which the columns
`n1 … n1 + N - 1` should be kept) the *rows* `n1 … n1 + N - 1` are kept. -/
theorem C103_transform_partial (N : ℕ) (X : List (List ℝ)) (hN : 0 < N) (hX : ∀ x ∈ X, x.length = N) (a : SsqFullArgs)
    (t : Option PadType) (ht : a.padtype = t.map padName) (hsc : ∀ name, a.scales ≠ .str name) (isSeq : Bool) (ks : List ℤ)
    (ho : Spec.Orders a.order isSeq ks) (fs : ℝ) (Ws dWs : List (List (List ℂ)))
    (h : ssqHigher2 N X a fs isSeq = .ok (Ws, dWs)) (b : ℕ) (hb : b < X.length) (W : List (List ℂ)) (sc : List ℝ)
    (st : ScaleType) (dW : List (List ℂ)) (hw : ssqHigher X[b] a fs isSeq = .ok (W, sc, st, dW)) :
    dWs.getD b [] = dW ∧ ∃ (V : List (List ℂ)) (n1 : ℕ), (n1 : ℤ) = (p2up N).2.1 ∧
      (∃ s D, cwtOrder X[b] (a.hoArgs fs isSeq) = .ok (.one V, s, D)) ∧
      W = V.map (fun r => (r.drop n1).take N) ∧ Ws.getD b [] = (V.drop n1).take N := by
  have hxl := hX _ (List.getElem_mem hb)
  have hord : ∀ k, a.order = .int k → 0 < k := by
    intro k hk
    unfold Spec.Orders at ho
    rcases ho with ⟨-, ho⟩ | ⟨-, k', hk', ho, -⟩
    · rw [ho] at hk; cases hk
    · rw [ho] at hk; cases hk; exact hk'
  obtain ⟨V, s, D, n1, shape, dt, g1, g2, g3, g4, g5, g6⟩ := ssqHigher_ok (by rw [hxl]; exact hN) ht ho hw
  rw [hxl] at g2
  unfold ssqHigher2 at h
  obtain ⟨r, hr, h⟩ := bind_ok h
  obtain ⟨M, s', D'⟩ := r
  have hb1 := C97_batch_partial N X hX (a.hoArgs fs isSeq) hsc hord M s' D' hr b hb
  rw [g1, Except.ok.injEq, Prod.mk.injEq] at hb1
  cases M with
  | many l => simp at h
  | one V2 =>
    simp only at h
    obtain ⟨d, hd, h⟩ := bind_ok h
    have htd : trigdiff true (.d3 (a.padCols N) V2) { fs := fs, rpadded := some true, N := some N, n1 := some (p2up N).2.1 } =
        .ok (.d3 (trimCols (a.padCols N) ((p2up N).2.1, N))
          (V2.map fun m => m.map fun q => unpad (diffRow fs q) (p2up N).2.1 N)) := by
      unfold trigdiff
      simp only [trigPadtype, show ("cwt" = "stft") = False by decide, if_false, Option.getD_some, if_true, trigTrim,
        reduceCtorEq, and_false, ne_eq, not_true_eq_false]
      rfl
    rw [htd] at hd
    simp only [Except.ok.injEq] at hd
    subst hd
    simp only [Except.ok.injEq, Prod.mk.injEq] at h
    obtain ⟨rfl, rfl⟩ := h
    have hV : V2.getD b [] = V := by
      have := hb1.1
      simp only [HoRes.row, HoRes.one.injEq] at this
      exact this.symm
    refine ⟨?_, V, n1, g2, ⟨s, D, g1⟩, ?_, ?_⟩
    · simp only at g6
      rw [g6, hxl, ← g2, ← hV]
      by_cases hb2 : b < V2.length
      · rw [List.getD_eq_getElem _ _ (by simpa using hb2), List.getElem_map, List.getD_eq_getElem _ _ hb2]
      · rw [List.getD_eq_default _ _ (by simpa using hb2), List.getD_eq_default _ _ (by omega)]; rfl
    · simp only at g5
      rw [g5, hxl]
      exact List.map_congr_left fun r _ => unpad_take n1 N r
    · rw [← hV]
      have hsl : ∀ M : List (List ℂ), pySlice M (some (p2up N).2.1) (some ((p2up N).2.1 + N)) = (M.drop n1).take N := by
        intro M
        rw [← g2]
        have := pySlice_nat M n1 (n1 + N)
        rw [show ((n1 + N : ℕ) : ℤ) = (n1 : ℤ) + N by push_cast; rfl] at this
        rw [this]
        congr 1
        omega
      by_cases hb2 : b < V2.length
      · rw [List.getD_eq_getElem _ _ (by simpa using hb2), List.getElem_map, List.getD_eq_getElem _ _ hb2, hsl]
      · rw [List.getD_eq_default _ _ (by simpa using hb2), List.getD_eq_default _ _ (by omega)]; simp

/-- **C103, number of rows.** Each signal's transform has `na - n1` rows, at most `N`, instead of one per scale; with no more
scales than left padding it is empty. -/
theorem C103_rows (N : ℕ) (X : List (List ℝ)) (hN : 0 < N) (hX : ∀ x ∈ X, x.length = N) (a : SsqFullArgs)
    (t : Option PadType) (ht : a.padtype = t.map padName) (hsc : ∀ name, a.scales ≠ .str name) (isSeq : Bool) (ks : List ℤ)
    (ho : Spec.Orders a.order isSeq ks) (fs : ℝ) (Ws dWs : List (List (List ℂ)))
    (h : ssqHigher2 N X a fs isSeq = .ok (Ws, dWs)) (b : ℕ) (hb : b < X.length) (W : List (List ℂ)) (sc : List ℝ)
    (st : ScaleType) (dW : List (List ℂ)) (hw : ssqHigher X[b] a fs isSeq = .ok (W, sc, st, dW)) (n1 : ℕ)
    (hn1 : (n1 : ℤ) = (p2up N).2.1) :
    W.length = sc.length ∧ (Ws.getD b []).length = min N (sc.length - n1) ∧ (dWs.getD b []).length = sc.length ∧
    (sc.length ≤ n1 → Ws.getD b [] = []) := by
  obtain ⟨e1, V, m, g2, ⟨s, D, g1⟩, g5, g6⟩ := C103_transform_partial N X hN hX a t ht hsc isSeq ks ho fs Ws dWs h b hb W sc st
    dW hw
  have : m = n1 := by have := g2.trans hn1.symm; exact_mod_cast this
  subst this
  have hxl := hX _ (List.getElem_mem hb)
  obtain ⟨V', s', D', m', shape, dt, k1, k2, k3, k4, k5, k6⟩ := ssqHigher_ok (by rw [hxl]; exact hN) ht ho hw
  rw [g1, Except.ok.injEq, Prod.mk.injEq, HoRes.one.injEq] at k1
  rw [← k1.1] at k4 k6
  have hV : V.length = sc.length := k4.1
  simp only at k6
  refine ⟨by rw [g5, List.length_map, hV], by rw [g6, List.length_take, List.length_drop, hV], by
    rw [e1, k6, List.length_map, hV], fun hle => ?_⟩
  rw [g6, List.drop_eq_nil_of_le (by omega), List.take_nil]

/-- A batch with order 1. -/
theorem exFull_batch (N : ℕ) (hN : 0 < N) (X : List (List ℝ)) (hX : ∀ x ∈ X, x.length = N) (x : List ℝ) (hx : x ∈ X)
    (t : Option PadType) : ∃ Ws dWs, ssqHigher2 N X (exFull t .trig (.int 1) false) 8 false = .ok (Ws, dWs) := by
  set a := exFull t .trig (.int 1) false with ha
  have hxN := hX x hx
  obtain ⟨W, dW, hW⟩ := C37_succeeds x (hoCallArgs (a.hoArgs 8 false) (ordWav (a.hoArgs 8 false) 1) sc124) t rfl (by omega) 8
    (1 / 8)
    (by show processFsT (some 8) none x.length = _; simp only [processFsT]; rw [if_neg (by norm_num)])
    (by intro b hb; simp [hoCallArgs, ordWav] at hb)
    [1, 2, 4] .log 3 (.int 1) none (by rintro ⟨n, hn⟩; simp [hoCallArgs, sc124] at hn) (fun _ => rfl)
    (process124 _ _ _ _)
  obtain ⟨Vs, dVs, h2⟩ := C71_succeeds N hN X hX _ t rfl x hx W _ dW hW
  have hho : cwtOrder2 N X (a.hoArgs 8 false) = .ok (.one Vs, sc124, .one dVs) := by
    unfold cwtOrder2
    simp only [show (a.hoArgs 8 false).order = .int 1 from rfl]
    rw [if_pos (by norm_num)]
    unfold cwtHigherOrder
    have hw : hoWavelets (a.hoArgs 8 false) [1] = .ok [ordWav (a.hoArgs 8 false) 1] := rfl
    have hs : hoScales (a.hoArgs 8 false) X.length = .ok sc124 := rfl
    rw [hw, ok_bind, hs, ok_bind]
    have hav : ¬ (hoAverage (some false) 1 = some true ∨ (hoAverage (some false) 1 = none ∧ (false : Bool) = true)) := by
      simp [hoAverage]
    simp only [List.mapM_cons, List.mapM_nil, h2, ok_bind, pure_eq_ok, List.map_cons, List.map_nil, List.length_cons,
      List.length_nil, zero_add]
    rw [show (a.hoArgs 8 false).average = some false from rfl, decide_eq_false hav]
    rfl
  unfold ssqHigher2
  rw [hho, ok_bind]
  simp only
  refine ⟨_, _, rfl⟩

/-- **C103 refuted.** One signal of four samples, three scales, order 1: alone its transform has three rows, in a batch one. -/
theorem C103_refuted : ¬ C103_full := by
  intro H
  have hX : ∀ x ∈ ([[3, 1, 4, 1]] : List (List ℝ)), x.length = 4 := by simp
  obtain ⟨Ws, dWs, h⟩ := exFull_batch 4 (by norm_num) [[3, 1, 4, 1]] hX [3, 1, 4, 1] (by simp) (some .reflect)
  obtain ⟨V, dV, hV, hl⟩ := exFull_tr1 [3, 1, 4, 1] (by simp) (some .reflect) .trig false
  have hs : ssqHigher [3, 1, 4, 1] (exFull (some .reflect) .trig (.int 1) false) 8 false = .ok (V, [1, 2, 4], .log, dV) := by
    unfold ssqTransforms at hV
    rw [show (exFull (some .reflect) .trig (.int 1) false).order = .int 1 from rfl] at hV
    simpa using hV
  have ho : Spec.Orders (exFull (some .reflect) .trig (.int 1) false).order false [1] :=
    Or.inr ⟨rfl, 1, by norm_num, rfl, rfl⟩
  have hn : ∀ name, (exFull (some .reflect) .trig (.int 1) false).scales ≠ .str name := by simp [exFull, exSsq, sc124]
  have hp := p2up_pow 2 (by norm_num)
  norm_num at hp
  have e := (H 4 _ (by norm_num) hX _ (some .reflect) rfl hn false [1] ho 8 Ws dWs h 0 (by simp) V _ _ dV hs).1
  have e2 := (C103_rows 4 _ (by norm_num) hX _ (some .reflect) rfl hn false [1] ho 8 Ws dWs h 0 (by simp) V _ _ dV hs 2
    (by rw [hp]; rfl)).2.1
  rw [e, hl] at e2
  norm_num at e2

/-- Non-vacuity of `C103_rows`, where nothing is left: eight samples, three scales, four samples of left padding. -/
example : ∃ Ws dWs, ssqHigher2 8 [[3, 1, 4, 1, 5, 9, 2, 6]] (exFull (some .reflect) .trig (.int 1) false) 8 false = .ok (Ws, dWs) ∧
    Ws.getD 0 [] = [] := by
  have hX : ∀ x ∈ ([[3, 1, 4, 1, 5, 9, 2, 6]] : List (List ℝ)), x.length = 8 := by simp
  obtain ⟨Ws, dWs, h⟩ := exFull_batch 8 (by norm_num) [[3, 1, 4, 1, 5, 9, 2, 6]] hX [3, 1, 4, 1, 5, 9, 2, 6] (by simp) (some .reflect)
  obtain ⟨V, dV, hV, hl⟩ := exFull_tr1 [3, 1, 4, 1, 5, 9, 2, 6] (by simp) (some .reflect) .trig false
  have hs : ssqHigher [3, 1, 4, 1, 5, 9, 2, 6] (exFull (some .reflect) .trig (.int 1) false) 8 false =
      .ok (V, [1, 2, 4], .log, dV) := by
    unfold ssqTransforms at hV
    rw [show (exFull (some .reflect) .trig (.int 1) false).order = .int 1 from rfl] at hV
    simpa using hV
  have hp := p2up_pow 3 (by norm_num)
  norm_num at hp
  exact ⟨Ws, dWs, h, (C103_rows 8 _ (by norm_num) hX _ (some .reflect) rfl (by simp [exFull, exSsq, sc124]) false [1]
    (Or.inr ⟨rfl, 1, by norm_num, rfl, rfl⟩) 8 Ws dWs h 0 (by simp) V _ _ dV hs 4 (by rw [hp]; rfl)).2.2.2 (by simp)⟩

/-- Non-vacuity of `C102_ssqueeze_partial`: two signals. -/
example (W1 W2 dW1 dW2 : ℕ → ℕ → ℂ) : ∃ Txs, ssqueeze3
    { base := { ex01 .abs with gamma := some (1 / 2) }, Ws := [W1, W2], ws := none, dWs := some [dW1, dW2], fn3 := id } =
      .ok (Txs, [0, 1]) := by
  obtain ⟨T1, h1⟩ := ex01_ok (sq := .abs) (Or.inr (Or.inr (Or.inl rfl))) none W1 dW1 (some dW1) (by simp) (by simp)
  obtain ⟨T2, h2⟩ := ex01_ok (sq := .abs) (Or.inr (Or.inr (Or.inl rfl))) none W2 dW2 (some dW2) (by simp) (by simp)
  refine ⟨[T1, T2], ?_⟩
  rw [C102_ssqueeze_partial _ ⟨by simp, by simp, by simp⟩ (by simp [ex01]) (by simp [ex01])]
  refine ⟨rfl, fun b hb => ?_⟩
  simp only [List.length_cons, List.length_nil] at hb
  interval_cases b
  · exact h1
  · exact h2

/-- Non-vacuity of `C102_ssq_stft`: two signals of four samples. -/
example : ∃ r, ssqStft2 onesLib 0 4 [[1, 2, 3, 4], [0, 1, 0, -5]] { stft := exArgs, gamma := some (-1), th := 1, eps := 1 } id =
    .ok r := by
  set a : SsqStftArgs := { stft := exArgs, gamma := some (-1), th := 1, eps := 1 } with ha
  have hv : ∀ x : List ℝ, x.length = 4 → StftValid onesLib 0 x { exArgs with fs := 1 } 3 [1, 2, 1]
      (zeroDenormals 0 (diffWindow [1, 2, 1])) .reflect := by
    intro x hx
    have h := validFs exValid 1
    exact ⟨by omega, h.hhop, h.hm, by rw [hx]; exact h.hnfft, h.hwin, h.hw, h.hpad, by intro h; cases h⟩
  have hs : ∀ x : List ℝ, x.length = 4 → ∃ S dS, stft onesLib 0 x { exArgs with fs := 1 } = .ok (3, S, dS) := by
    intro x hx
    obtain ⟨E, hE⟩ := exists_extension .reflect x (by omega)
    obtain ⟨S, dS, h1, -⟩ := C07_stft_entries (hv x hx) E hE
    exact ⟨S, dS, h1⟩
  have hX : ∀ x ∈ ([[1, 2, 3, 4], [0, 1, 0, -5]] : List (List ℝ)), x.length = 4 := by simp
  obtain ⟨⟨n, Ss, dSs⟩, hr⟩ := C101_succeeds onesLib 0 4 [[1, 2, 3, 4], [0, 1, 0, -5]] (by simp) hX { exArgs with fs := 1 }
    fun x hx => by obtain ⟨S, dS, h⟩ := hs x (hX x hx); exact ⟨_, h⟩
  obtain ⟨l1, l2, h⟩ := C101_batched onesLib 0 4 _ hX _ n Ss dSs hr
  have hn : n = 3 := by
    obtain ⟨S, dS, h2⟩ := hs [1, 2, 3, 4] (by simp)
    have h1 := h 0 (by simp)
    simp only [List.getElem_cons_zero] at h1
    rw [h2, Except.ok.injEq, Prod.mk.injEq] at h1
    exact h1.1.symm
  subst hn
  match Ss, dSs, l1, l2 with
  | [S0, S1], [d0, d1], _, _ =>
    have e : S0.length = S1.length := stft_len (x := [1, 2, 3, 4]) (y := [0, 1, 0, -5]) rfl (h 0 (by simp)) (h 1 (by simp))
    have g : ∀ S dS, ∃ Tx, ssqueeze (ssqStftCall a 1 2 S dS) = .ok (Tx, makeSfs 2 1) := by
      intro S dS
      obtain ⟨Tx, f, h1, h2, -⟩ := ssqStftCall_sum a 1 2 S dS le_rfl rfl rfl (by simp [ha])
        (fun i _ j _ => Or.inr (by simp only [ha, Option.getD_some]; have := norm_nonneg ((S.getD j []).getD i 0); linarith))
      exact ⟨Tx, by rw [h1, h2]; rfl⟩
    obtain ⟨T0, g0⟩ := g S0 d0
    obtain ⟨T1, g1⟩ := g S1 d1
    have h3 : ssqueeze3
        { base := ssqStftCall a 1 2 S0 d0
          Ws := [S0, S1].map fun S => fun i j => (S.getD j []).getD i 0
          ws := none
          dWs := some ([d0, d1].map fun dS => fun i j => (dS.getD j []).getD i 0)
          fn3 := id } = .ok ([T0, T1], makeSfs 2 1) := by
      rw [C102_ssqueeze_partial _ ⟨by simp, by simp, by simp⟩ (by simp [ssqStftCall, ha]) (by simp [ssqStftCall, ha])]
      refine ⟨rfl, fun b hb => ?_⟩
      simp only [List.length_map, List.length_cons, List.length_nil] at hb
      interval_cases b
      · exact g0
      · refine Eq.trans ?_ g1
        simp only [SsqBatch.at, ssqStftCall, e]
        rfl
    refine ⟨([T0, T1], [S0, S1], makeSfs 2 1, makeSfs 2 1), ?_⟩
    unfold ssqStft2
    rw [if_neg (by simp [ha])]
    rw [show processFsT a.fs a.t 4 = .ok (.fin 1 1) by simp [ha, processFsT]]
    simp only [ok_bind]
    rw [show checkSsqueezingArgs false a.squeezing .none false none none false .cwt = .ok none from rfl, ok_bind]
    rw [show checkLinearFreqs a.ssqFreqs = .ok () from rfl, ok_bind]
    rw [show stft2 onesLib 0 4 [[1, 2, 3, 4], [0, 1, 0, -5]] { a.stft with fs := 1 } = .ok (3, [S0, S1], [d0, d1]) from hr,
      ok_bind]
    simp only [List.headD_cons]
    rw [h3]
    rfl

end Ssq
