import Verif.Model.CwtThreads
import Verif.Props.Cache

/-!
# C214: `cwt` in several threads
-/
namespace Ssq

/-- What is kept in the wavelet fits together: either nothing is kept, or samples with their length and scales (so after a new `Wavelet`, and after completed calls). -/
def Spec.WavOk (w : TWav) : Prop := (w.psih = none ∧ w.pN = none) ∨ ∃ e, w.psih = some e ∧ w.pN = some e.len ∧ w.ps = e.scales

/-- The result of a call: samples for the length of its signal and for its scales, up to `allclose`. -/
def Spec.RightFor (c : TCall) (r : Py TFb) : Prop := ∃ e, r = .ok e ∧ e.len = c.len ∧ Spec.Within c.scales e.scales

/-- The full claim: threads that share wavelets get what they would get alone, under every schedule. -/
def C214_full : Prop := ∀ (calls : ℕ → TCall) (of : ℕ → ℕ) (wav : ℕ → TWav) (sched : List ℕ), (∀ k, Spec.WavOk (wav k)) →
  ∀ i r, (tRun calls of wav sched).pc i = .done r → Spec.RightFor (calls i) r

theorem within_refl (l : List ℝ) : Spec.Within l l := (npAllclose_iff _ _).1 (npAllclose_refl l)

/-- The invariant of a thread with a wavelet of its own. -/
def OwnInv (c : TCall) (N0 : ℕ) (w : TWav) : TPc → Prop
  | .start => Spec.WavOk w ∧ w.N = N0
  | .setN n => Spec.WavOk w ∧ n = N0
  | .readXi n => Spec.WavOk w ∧ n = N0 ∧ w.N = c.len
  | .readPN n => Spec.WavOk w ∧ n = N0 ∧ w.N = c.len
  | .readPs n pN => Spec.WavOk w ∧ n = N0 ∧ w.N = c.len ∧ pN = w.pN
  | .readN n pN ps => Spec.WavOk w ∧ n = N0 ∧ w.N = c.len ∧ pN = w.pN ∧ ps = w.ps
  | .clear n m => n = N0 ∧ w.N = c.len ∧ m = c.len
  | .putPsih n m => n = N0 ∧ w.N = c.len ∧ m = c.len
  | .putN n m => n = N0 ∧ w.N = c.len ∧ m = c.len ∧ w.psih = some ⟨c.len, c.scales⟩
  | .putPs n => n = N0 ∧ w.N = c.len ∧ w.psih = some ⟨c.len, c.scales⟩ ∧ w.pN = some c.len
  | .ret n => n = N0 ∧ w.N = c.len ∧ ∃ e, w.psih = some e ∧ w.pN = some e.len ∧ w.ps = e.scales ∧ e.len = c.len ∧ Spec.Within c.scales e.scales
  | .mul n r => Spec.WavOk w ∧ n = N0 ∧ w.N = c.len ∧ ∃ e, r = some e ∧ e.len = c.len ∧ Spec.Within c.scales e.scales
  | .deriv n e => Spec.WavOk w ∧ n = N0 ∧ w.N = c.len ∧ e.len = c.len ∧ Spec.Within c.scales e.scales
  | .restore n e => Spec.WavOk w ∧ n = N0 ∧ e.len = c.len ∧ Spec.Within c.scales e.scales
  | .done r => Spec.WavOk w ∧ w.N = N0 ∧ Spec.RightFor c r

theorem ownInv_step (c : TCall) (N0 : ℕ) (w : TWav) (p : TPc) (h : OwnInv c N0 w p) : OwnInv c N0 (tStep c p w).2 (tStep c p w).1 := by
  cases p with
  | start => exact ⟨h.1, h.2⟩
  | setN n =>
    simp only [tStep]
    split
    · exact ⟨h.1, h.2, rfl⟩
    · exact ⟨h.1, h.2, rfl⟩
  | readXi n => exact ⟨h.1, h.2.1, h.2.2, _, rfl, h.2.2, within_refl _⟩
  | readPN n => exact ⟨h.1, h.2.1, h.2.2, rfl⟩
  | readPs n pN => exact ⟨h.1, h.2.1, h.2.2.1, h.2.2.2, rfl⟩
  | readN n pN ps =>
    obtain ⟨h1, h2, h3, h4, h5⟩ := h
    simp only [tStep]
    split
    · rename_i hh
      rcases h1 with ⟨-, g⟩ | ⟨e, g1, g2, g3⟩
      · rw [h4, g] at hh
        cases hh.1
      · refine ⟨h2, h3, e, g1, g2, g3, ?_, ?_⟩
        · have := hh.1
          rw [h4, g2, h3] at this
          exact Option.some.inj this
        · rw [← g3, ← h5]
          exact (npAllclose_iff _ _).1 hh.2.2
    · exact ⟨h2, h3, h3⟩
  | clear n m => exact ⟨h.1, h.2.1, h.2.2⟩
  | putPsih n m =>
    obtain ⟨h1, h2, h3⟩ := h
    subst h3
    exact ⟨h1, h2, rfl, rfl⟩
  | putN n m =>
    obtain ⟨h1, h2, h3, h4⟩ := h
    subst h3
    exact ⟨h1, h2, h4, rfl⟩
  | putPs n => exact ⟨h.1, h.2.1, _, h.2.2.1, h.2.2.2, rfl, rfl, within_refl _⟩
  | ret n =>
    obtain ⟨h1, h2, e, h3, h4, h5, h6, h7⟩ := h
    exact ⟨.inr ⟨e, h3, h4, h5⟩, h1, h2, e, h3, h6, h7⟩
  | mul n r =>
    obtain ⟨h1, h2, h3, e, h4, h5, h6⟩ := h
    subst h4
    simp only [tStep]
    rw [if_pos h5]
    split
    · exact ⟨h1, h2, h3, h5, h6⟩
    · exact ⟨h1, h2, h5, h6⟩
  | deriv n e =>
    obtain ⟨h1, h2, h3, h4, h5⟩ := h
    simp only [tStep]
    rw [if_pos h3]
    exact ⟨h1, h2, h4, h5⟩
  | restore n e => exact ⟨h.1, h.2.1, e, rfl, h.2.2.1, h.2.2.2⟩
  | done r => exact h

/-- **C214, one wavelet per thread**: under every schedule, every call that ends returns the samples for its own length and scales, and leaves the wavelet's length as it was. -/
theorem C214_own_partial (calls : ℕ → TCall) (of : ℕ → ℕ) (hof : Function.Injective of) (wav : ℕ → TWav) (sched : List ℕ) (hw : ∀ k, Spec.WavOk (wav k)) (i : ℕ) (r : Py TFb)
    (hd : (tRun calls of wav sched).pc i = .done r) :
    Spec.RightFor (calls i) r ∧ ((tRun calls of wav sched).wav (of i)).N = (wav (of i)).N ∧ Spec.WavOk ((tRun calls of wav sched).wav (of i)) := by
  have inv : ∀ sched : List ℕ, ∀ i, OwnInv (calls i) (wav (of i)).N ((tRun calls of wav sched).wav (of i)) ((tRun calls of wav sched).pc i) := by
    intro sched
    induction sched using List.reverseRecOn with
    | nil => exact fun i => ⟨hw _, rfl⟩
    | append_singleton l a ih =>
      intro i
      have hr : tRun calls of wav (l ++ [a]) = tSysStep calls of (tRun calls of wav l) a := by simp [tRun]
      rw [hr]
      unfold tSysStep
      by_cases hi : i = a
      · subst hi
        simp only [Function.update_self]
        exact ownInv_step _ _ _ _ (ih i)
      · simp only []
        rw [Function.update_of_ne hi, Function.update_of_ne fun h => hi (hof h)]
        exact ih i
  have := inv sched i
  rw [hd] at this
  exact ⟨this.2.2, this.2.1, this.1⟩

/-- The invariant of a thread that shares a wavelet whose length and cache are already right: nobody changes anything. -/
def WarmInv (c : TCall) (n : ℕ) (e : TFb) : TPc → Prop
  | .start => True
  | .setN m => m = n
  | .readXi m => m = n
  | .readPN m => m = n ∧ Spec.Within c.scales e.scales
  | .readPs m pN => m = n ∧ Spec.Within c.scales e.scales ∧ pN = some n
  | .readN m pN ps => m = n ∧ Spec.Within c.scales e.scales ∧ pN = some n ∧ ps = e.scales
  | .ret m => m = n ∧ Spec.Within c.scales e.scales
  | .mul m r => m = n ∧ ∃ e', r = some e' ∧ e'.len = n ∧ Spec.Within c.scales e'.scales
  | .deriv m e' => m = n ∧ e'.len = n ∧ Spec.Within c.scales e'.scales
  | .restore m e' => m = n ∧ e'.len = n ∧ Spec.Within c.scales e'.scales
  | .done r => Spec.RightFor c r
  | _ => False

/-- A wavelet of length `n` that keeps the samples `e` of that length. -/
def Spec.Warm (n : ℕ) (e : TFb) (w : TWav) : Prop := w.N = n ∧ e.len = n ∧ w.psih = some e ∧ w.pN = some n ∧ w.ps = e.scales

theorem warmInv_step (c : TCall) (n : ℕ) (e : TFb) (hl : c.len = n) (hc : c.cached = true → Spec.Within c.scales e.scales) (w : TWav) (hw : Spec.Warm n e w) (p : TPc) (h : WarmInv c n e p) :
    WarmInv c n e (tStep c p w).1 ∧ Spec.Warm n e (tStep c p w).2 := by
  obtain ⟨w1, w2, w3, w4, w5⟩ := hw
  have hw : Spec.Warm n e w := ⟨w1, w2, w3, w4, w5⟩
  have hw' : Spec.Warm n e { w with N := n } := ⟨rfl, w2, w3, w4, w5⟩
  cases p with
  | start => exact ⟨w1, hw⟩
  | setN m =>
    simp only [tStep, hl]
    refine ⟨?_, hw'⟩
    split
    · rename_i hcc
      exact ⟨h, hc hcc⟩
    · exact h
  | readXi m => exact ⟨⟨h, _, rfl, w1, within_refl _⟩, hw⟩
  | readPN m => exact ⟨⟨h.1, h.2, w4⟩, hw⟩
  | readPs m pN => exact ⟨⟨h.1, h.2.1, h.2.2, w5⟩, hw⟩
  | readN m pN ps =>
    obtain ⟨h1, h2, h3, h4⟩ := h
    simp only [tStep]
    rw [if_pos ⟨by rw [h3, w1], by rw [h4]; exact h2.1, by rw [h4]; exact (npAllclose_iff _ _).2 h2⟩]
    exact ⟨⟨h1, h2⟩, hw⟩
  | ret m => exact ⟨⟨h.1, e, w3, w2, h.2⟩, hw⟩
  | mul m r =>
    obtain ⟨h1, e', h2, h3, h4⟩ := h
    subst h2
    simp only [tStep]
    rw [if_pos (h3.trans hl.symm)]
    refine ⟨?_, hw⟩
    split
    · exact ⟨h1, h3, h4⟩
    · exact ⟨h1, h3, h4⟩
  | deriv m e' =>
    simp only [tStep]
    rw [if_pos (w1.trans hl.symm)]
    exact ⟨h, hw⟩
  | restore m e' =>
    refine ⟨⟨e', rfl, h.2.1.trans hl.symm, h.2.2⟩, ?_⟩
    simp only [tStep]
    rw [h.1]
    exact hw'
  | done r => exact ⟨h, hw⟩
  | _ => exact h.elim

/-- **C214, one wavelet for all threads**, if its length is that of the padded signals of all calls, and the samples are kept already (by a call before, with the same scales): under every schedule, every
call that ends returns the samples for its length and scales. Calls with `cache_wavelet=False` may have any scales. -/
theorem C214_shared_partial (calls : ℕ → TCall) (wav : ℕ → TWav) (n : ℕ) (e : TFb) (sched : List ℕ) (hl : ∀ i, (calls i).len = n)
    (hc : ∀ i, (calls i).cached = true → Spec.Within (calls i).scales e.scales) (hw : Spec.Warm n e (wav 0)) (i : ℕ) (r : Py TFb)
    (hd : (tRun calls (fun _ => 0) wav sched).pc i = .done r) : Spec.RightFor (calls i) r ∧ Spec.Warm n e ((tRun calls (fun _ => 0) wav sched).wav 0) := by
  have inv : ∀ sched : List ℕ, Spec.Warm n e ((tRun calls (fun _ => 0) wav sched).wav 0) ∧ ∀ i, WarmInv (calls i) n e ((tRun calls (fun _ => 0) wav sched).pc i) := by
    intro sched
    induction sched using List.reverseRecOn with
    | nil => exact ⟨hw, fun i => trivial⟩
    | append_singleton l a ih =>
      have hr : tRun calls (fun _ => 0) wav (l ++ [a]) = tSysStep calls (fun _ => 0) (tRun calls (fun _ => 0) wav l) a := by simp [tRun]
      rw [hr]
      obtain ⟨i1, i2⟩ := ih
      obtain ⟨s1, s2⟩ := warmInv_step (calls a) n e (hl a) (hc a) _ i1 _ (i2 a)
      unfold tSysStep
      simp only [Function.update_self]
      refine ⟨s2, fun i => ?_⟩
      by_cases hi : i = a
      · subst hi
        rw [Function.update_self]
        exact s1
      · rw [Function.update_of_ne hi]
        exact i2 i
  obtain ⟨i1, i2⟩ := inv sched
  have := i2 i
  rw [hd] at this
  exact ⟨this, i1⟩

/-- How many steps a call has left at most. -/
def TPc.rank : TPc → ℕ
  | .start => 13 | .setN _ => 12 | .readXi _ => 4 | .readPN _ => 11 | .readPs _ _ => 10 | .readN _ _ _ => 9 | .clear _ _ => 8 | .putPsih _ _ => 7 | .putN _ _ => 6 | .putPs _ => 5
  | .ret _ => 4 | .mul _ _ => 3 | .deriv _ _ => 2 | .restore _ _ => 1 | .done _ => 0

theorem rank_step (c : TCall) (p : TPc) (w : TWav) : (tStep c p w).1.rank ≤ p.rank - 1 := by
  cases p with
  | setN n => simp only [tStep]; split <;> simp [TPc.rank]
  | readN n pN ps => simp only [tStep]; split <;> simp [TPc.rank]
  | mul n r =>
    cases r with
    | none => simp [tStep, TPc.rank]
    | some e => simp only [tStep]; split <;> [split; skip] <;> simp [TPc.rank]
  | deriv n e => simp only [tStep]; split <;> simp [TPc.rank]
  | _ => simp [tStep, TPc.rank]

/-- No call blocks: under every schedule, shared wavelets or not, a thread that was given thirteen steps has ended its call. -/
theorem C214_ends (calls : ℕ → TCall) (of : ℕ → ℕ) (wav : ℕ → TWav) (sched : List ℕ) (i : ℕ) (h : 13 ≤ sched.count i) : ∃ r, (tRun calls of wav sched).pc i = .done r := by
  have inv : ∀ sched : List ℕ, ((tRun calls of wav sched).pc i).rank ≤ 13 - sched.count i := by
    intro sched
    induction sched using List.reverseRecOn with
    | nil => exact le_rfl
    | append_singleton l a ih =>
      have hr : tRun calls of wav (l ++ [a]) = tSysStep calls of (tRun calls of wav l) a := by simp [tRun]
      rw [hr]
      unfold tSysStep
      simp only []
      by_cases hi : i = a
      · subst hi
        rw [Function.update_self]
        have := rank_step (calls i) ((tRun calls of wav l).pc i) ((tRun calls of wav l).wav (of i))
        rw [List.count_append, List.count_singleton_self]
        omega
      · rw [Function.update_of_ne hi, List.count_append, List.count_singleton, if_neg (by simpa using fun h : a = i => hi h.symm)]
        omega
  have := inv sched
  generalize hp : (tRun calls of wav sched).pc i = p at this ⊢
  cases p with
  | done r => exact ⟨r, rfl⟩
  | _ => simp [TPc.rank] at this; omega

/-- The silent failure: two threads, one new wavelet of the right length, signals of one length, different scales. The first thread is interrupted after it kept its samples and before it returns them. It returns the
samples for the scales of the second, and no exception. -/
theorem C214_silent : let calls : ℕ → TCall := fun i => if i = 0 then { len := 128, scales := [2] } else { len := 128, scales := [64] }
    (tRun calls (fun _ => 0) (fun _ => { N := 128 }) (List.replicate 9 0 ++ List.replicate 10 1 ++ List.replicate 4 0)).pc 0 = .done (.ok ⟨128, [64]⟩) := by
  have h1 : ¬ npAllclose [64] [2] := by
    intro h
    simp only [npAllclose, List.forall₂_cons] at h
    norm_num at h
  simp [tRun, List.replicate, tSysStep, tStep, Function.update, h1]

theorem C214_refuted : ¬ C214_full := by
  intro hf
  obtain ⟨e, h1, -, h2⟩ := hf (fun i => if i = 0 then { len := 128, scales := [2] } else { len := 128, scales := [64] }) (fun _ => 0) (fun _ => { N := 128 })
    (List.replicate 9 0 ++ List.replicate 10 1 ++ List.replicate 4 0) (fun _ => .inl ⟨rfl, rfl⟩) 0 _ C214_silent
  cases h1
  have := h2.2 0 (by simp) (by simp)
  norm_num at this

/-- Neither does it help that all threads make the same call: while the samples are not yet kept, one thread forgets what another is about to return, which then raises `TypeError`. -/
theorem C214_cold : (tRun (fun _ => { len := 128, scales := [2] }) (fun _ => 0) (fun _ => { N := 128 }) (List.replicate 5 1 ++ List.replicate 9 0 ++ [1] ++ List.replicate 2 0)).pc 0 =
    .done (.error .typeError) := by
  simp [tRun, List.replicate, tSysStep, tStep, Function.update]

/-- The hypotheses of the partial claims are met, and the calls end: two threads that share a wavelet with samples kept, taking turns. -/
example : ∃ r, (tRun (fun _ => { len := 128, scales := [2, 4] }) (fun _ => 0) (fun _ => { N := 128, psih := some ⟨128, [2, 4]⟩, pN := some 128, ps := [2, 4] }) ((List.range 26).map (· % 2))).pc 1 = .done r ∧
    Spec.RightFor { len := 128, scales := [2, 4] } r := by
  obtain ⟨r, hr⟩ := C214_ends (fun _ => { len := 128, scales := [2, 4] }) (fun _ => 0) (fun _ => { N := 128, psih := some ⟨128, [2, 4]⟩, pN := some 128, ps := [2, 4] }) ((List.range 26).map (· % 2)) 1 (by decide)
  exact ⟨r, hr, (C214_shared_partial (fun _ => { len := 128, scales := [2, 4] }) _ 128 ⟨128, [2, 4]⟩ _ (fun _ => rfl) (fun _ _ => within_refl _) ⟨rfl, rfl, rfl, rfl, rfl⟩ 1 r hr).1⟩

end Ssq
