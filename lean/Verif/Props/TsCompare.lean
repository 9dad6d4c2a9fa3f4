import Verif.Model.TsCompare
import Verif.Props.Viz
import Verif.Lemmas.PyM
import Mathlib.Tactic.NormNum
import Mathlib.Tactic.Push

/-!
# C216-C219: the comparisons of `TestSignals` and the lines of plots (ssqueezepy/_test_signals.py:501-529, 785-977; ssqueezepy/visuals.py:771-774, 928-943)
-/
namespace Ssq

namespace Spec

/-- The title over the transforms of `s` when `d` is the dictionary that goes with them: the title of the first of the signals that goes with `d`. -/
def firstTitle {A S V : Type} (title : S → V) (fn : S → Option (FnOut A)) (d : ℕ) (signals : List S) : Option V :=
  (signals.find? fun s => (fn s).any fun o => o.pkw == d).map title

/-- The transforms of each signal, each under the title of the signal. -/
def ownTitles {A S V : Type} (title : S → V) (fn : S → Option (FnOut A)) (signals : List S) : List (List (A × Option V)) :=
  signals.map fun s => match fn s with
    | none => []
    | some o => o.images.map fun a => (a, some (title s))

end Spec

variable {A S V W O : Type}

theorem setDefault_get (kw : Kw V) (k : String) (v : V) (j : String) :
    (kw.setDefault k v).get? j = if j = k then some ((kw.get? k).getD v) else kw.get? j := kw_set_get kw k _ j

/-- What is shown: images and titles. -/
def shownTitles (r : List (List (A × Kw V))) : List (List (A × Option V)) := r.map fun l => l.map fun p => (p.1, p.2.get? "title")

theorem showOne_get (one title : V) (o : FnOut A) (heap : ℕ → Kw V) (d : ℕ) (k : String) :
    ((showOne one title o heap).2 d).get? k =
      if d = o.pkw then (if k = "title" then some (((heap d).get? k).getD title) else if k = "abs" ∨ k = "show" then some (((heap d).get? k).getD one) else (heap d).get? k)
      else (heap d).get? k := by
  unfold showOne
  by_cases hd : d = o.pkw
  · subst hd
    simp only [if_true, setDefault_get]
    by_cases h1 : k = "title"
    · subst h1; simp
    · by_cases h2 : k = "show"
      · subst h2; simp
      · by_cases h3 : k = "abs"
        · subst h3; simp
        · simp [h1, h2, h3]
  · simp only [if_neg hd]

theorem testTransforms_titles (one : V) (title : S → V) (fn : S → Option (FnOut A)) (pre : List S) (heap0 : ℕ → Kw V) (signals : List S) (heap : ℕ → Kw V)
    (h : ∀ d, (heap d).get? "title" = ((heap0 d).get? "title").or (Spec.firstTitle title fn d pre)) :
    shownTitles (testTransforms one title fn signals heap) =
      (List.range signals.length).map fun i => match (signals[i]?).bind fn with
        | none => []
        | some o => o.images.map fun a => (a, ((heap0 o.pkw).get? "title").or (Spec.firstTitle title fn o.pkw (pre ++ signals))) := by
  induction signals generalizing pre heap with
  | nil => rfl
  | cons s rest ih =>
    have hpre : pre ++ s :: rest = (pre ++ [s]) ++ rest := by simp
    rw [List.length_cons, List.range_succ_eq_map, List.map_cons, List.map_map]
    unfold testTransforms
    cases hf : fn s with
    | none =>
      simp only [shownTitles, List.map_cons]
      refine congrArg₂ List.cons ?_ ?_
      · simp [hf]
      · have := ih (pre ++ [s]) heap (fun d => by
          rw [h d]; unfold Spec.firstTitle
          rw [List.find?_append]
          simp [hf])
        rw [shownTitles] at this
        rw [this, hpre]
        refine List.map_congr_left fun i _ => ?_
        simp
    | some o =>
      simp only [shownTitles, List.map_cons]
      have hfirst : ∀ d, Spec.firstTitle title fn d (pre ++ [s]) = (Spec.firstTitle title fn d pre).or (if d = o.pkw then some (title s) else none) := by
        intro d
        unfold Spec.firstTitle
        rw [List.find?_append]
        by_cases hd : d = o.pkw
        · subst hd
          simp [hf]
        · have : (o.pkw == d) = false := by simpa using fun e => hd e.symm
          simp [hf, this, hd]
      have hnew : ∀ d, (((showOne one (title s) o heap).2 d).get? "title") = ((heap0 d).get? "title").or (Spec.firstTitle title fn d (pre ++ [s])) := by
        intro d
        rw [showOne_get, hfirst d]
        by_cases hd : d = o.pkw
        · simp only [hd, if_true]
          rw [h o.pkw]
          cases (heap0 o.pkw).get? "title" <;> cases Spec.firstTitle title fn o.pkw pre <;> simp
        · simp only [if_neg hd]
          rw [h d]
          simp
      refine congrArg₂ List.cons ?_ ?_
      · have hi : ((s :: rest)[0]?).bind fn = some o := by simp [hf]
        rw [hi]
        simp only [showOne, List.map_map]
        refine List.map_congr_left fun a _ => ?_
        have h1 := hnew o.pkw
        simp only [showOne, if_true] at h1
        simp only [Function.comp]
        rw [h1]
        refine congrArg (fun z => (a, z)) (congrArg _ ?_)
        rw [hpre]
        unfold Spec.firstTitle
        rw [List.find?_append (xs := pre ++ [s])]
        have : ((pre ++ [s]).find? fun s => (fn s).any fun o' => o'.pkw == o.pkw).isSome := by
          rw [List.find?_isSome]
          exact ⟨s, by simp, by simp [hf]⟩
        obtain ⟨z, hz⟩ := Option.isSome_iff_exists.1 this
        rw [hz]; rfl
      · have := ih (pre ++ [s]) _ hnew
        rw [shownTitles] at this
        rw [this, hpre]
        refine List.map_congr_left fun i _ => ?_
        simp

/-- C216: exactly which titles `test_transforms` shows: all the transforms of a signal stand under the title in the dictionary returned with them, if it has one, and otherwise under the title
of the first signal for which this dictionary was returned. -/
theorem C216_titles (one : V) (title : S → V) (fn : S → Option (FnOut A)) (heap : ℕ → Kw V) (signals : List S) :
    shownTitles (testTransforms one title fn signals heap) = signals.map fun s => match fn s with
      | none => []
      | some o => o.images.map fun a => (a, ((heap o.pkw).get? "title").or (Spec.firstTitle title fn o.pkw signals)) := by
  rw [testTransforms_titles one title fn [] heap signals heap (fun d => by simp [Spec.firstTitle])]
  apply List.ext_getElem
  · simp
  · intro i h1 h2
    simp only [List.length_map, List.length_range] at h1
    simp only [List.getElem_map, List.getElem_range, List.nil_append]
    rw [List.getElem?_eq_getElem h1]
    rfl

/-- C216: every transform is shown under its own signal's title if the function returns a new dictionary for each signal, without a title of its own. Missing: functions that return the
same dictionary more than once (`C216_refuted`). -/
theorem C216_own_partial (one : V) (title : S → V) (fn : S → Option (FnOut A)) (heap : ℕ → Kw V) (signals : List S)
    (hno : ∀ d, (heap d).get? "title" = none)
    (hnew : ∀ s ∈ signals, ∀ s' ∈ signals, ∀ o o', fn s = some o → fn s' = some o' → o.pkw = o'.pkw → s = s') :
    shownTitles (testTransforms one title fn signals heap) = Spec.ownTitles title fn signals := by
  rw [C216_titles]
  unfold Spec.ownTitles
  refine List.map_congr_left fun s hs => ?_
  cases hf : fn s with
  | none => rfl
  | some o =>
    simp only [hno, Option.none_or]
    refine List.map_congr_left fun a _ => ?_
    have hex : (signals.find? fun s => (fn s).any fun o' => o'.pkw == o.pkw).isSome := by
      rw [List.find?_isSome]
      exact ⟨s, hs, by simp [hf]⟩
    obtain ⟨z, hz⟩ := Option.isSome_iff_exists.1 hex
    have hzm := List.mem_of_find?_eq_some hz
    have hzp := List.find?_some hz
    unfold Spec.firstTitle
    rw [hz]
    cases hfz : fn z with
    | none => rw [hfz] at hzp; simp at hzp
    | some o' =>
      rw [hfz] at hzp
      have : o'.pkw = o.pkw := by simpa using hzp
      rw [hnew z hzm s hs o' o hfz hf this]
      rfl

/-- C216 in full. -/
def C216_full : Prop := ∀ (title : ℕ → ℕ) (fn : ℕ → Option (FnOut ℕ)) (heap : ℕ → Kw ℕ) (signals : List ℕ), (∀ d, (heap d).get? "title" = none) →
  shownTitles (testTransforms 1 title fn signals heap) = Spec.ownTitles title fn signals

/-- C216 is false of the code: a function that returns one dictionary for two signals gets both transforms under the title of the first. -/
theorem C216_refuted : ¬ C216_full := by
  intro h
  have := h id (fun s => some ⟨[s], 0⟩) (fun _ => []) [5, 7] (fun _ => rfl)
  rw [C216_titles] at this
  simp [Spec.ownTitles, Spec.firstTitle, Kw.get?] at this

/-- C216's hypotheses hold of two signals with a dictionary each, one of them with two images. -/
example : shownTitles (testTransforms 1 id (fun s : ℕ => some ⟨List.range s, s⟩) [1, 2] (fun _ => [("norm", 3)])) = [[(0, some 1)], [(0, some 2), (1, some 2)]] := by
  rw [C216_own_partial _ _ _ _ _ (fun _ => by simp [Kw.get?]) (by
    intro s _ s' _ o o' h1 h2 h3
    have e1 := Option.some.inj h1
    have e2 := Option.some.inj h2
    rw [← e1, ← e2] at h3
    exact h3)]
  rfl

/-! ## C217: `ridgecomp` -/

/-- C217: in the figure of the STFT (and in that of every squeezed transform, which is not flipped) a ridge is drawn on the row it was found on. Missing: the CWT (`C217_refuted`). -/
theorem C217_stft_partial (Tf : List A) (r : ℕ) : (ridgeImage .stft Tf)[(ridgeHeight .stft Tf r).toNat]? = Tf[r]? := by
  simp [ridgeImage, ridgeHeight]

/-- C217: in the figure of the CWT every ridge is drawn exactly one row from the row it was found on, whatever the row; ridges on row 0 are drawn outside the image. -/
theorem C217_cwt_off (Tf : List A) (r : ℕ) (hr : r < Tf.length) :
    (ridgeImage .cwt Tf)[(ridgeHeight .cwt Tf r).toNat - 1]? = Tf[r]? ∧ 0 < ridgeHeight .cwt Tf r ∧
      ((Tf.length : ℤ) ≤ ridgeHeight .cwt Tf r ↔ r = 0) := by
  simp only [ridgeImage, ridgeHeight]
  refine ⟨?_, by omega, by omega⟩
  rw [List.getElem?_reverse (by omega)]
  congr 1
  omega

/-- C217: the figure of `ridgecomp` has the same size whatever width and height are asked for. -/
theorem C217_size (w h : Option ℝ) : ridgecompFig w h = (72/5, 24/5) := by
  unfold ridgecompFig ridgecompFnFig
  norm_num

/-- C217 in full: ridges are drawn on the rows they were found on, and the figure has the size asked for. -/
def C217_full : Prop :=
  (∀ (tr : RTransform) (Tf : List ℕ) (r : ℕ), r < Tf.length → (ridgeImage tr Tf)[(ridgeHeight tr Tf r).toNat]? = Tf[r]?) ∧
    ∀ w h : ℝ, ridgecompFig (some w) (some h) = (w * 12, h * 12)

/-- C217 is false of the code, in both parts. -/
theorem C217_refuted : ¬ C217_full ∧
    (¬ ∀ (tr : RTransform) (Tf : List ℕ) (r : ℕ), r < Tf.length → (ridgeImage tr Tf)[(ridgeHeight tr Tf r).toNat]? = Tf[r]?) ∧
      ¬ ∀ w h : ℝ, ridgecompFig (some w) (some h) = (w * 12, h * 12) := by
  have h1 : ¬ ∀ (tr : RTransform) (Tf : List ℕ) (r : ℕ), r < Tf.length → (ridgeImage tr Tf)[(ridgeHeight tr Tf r).toNat]? = Tf[r]? := by
    intro h
    have := h .cwt [5, 6, 7] 1 (by simp)
    simp [ridgeImage, ridgeHeight] at this
  have h2 : ¬ ∀ w h : ℝ, ridgecompFig (some w) (some h) = (w * 12, h * 12) := by
    intro h
    have := h 1 1
    rw [C217_size] at this
    norm_num at this
  exact ⟨fun h => h1 h.1, h1, h2⟩

example : (ridgeImage .cwt [5, 6, 7])[(ridgeHeight .cwt [5, 6, 7] 1).toNat - 1]? = some 6 := (C217_cwt_off [5, 6, 7] 1 (by simp)).1

/-! ## C218: `wavcomp` and its layout -/

theorem tight_get (defaults : String → V) (kw : Kw V) (ks : List String) (k : String) :
    (ks.foldl (fun kw k => kw.set k (defaults k)) kw).get? k = if k ∈ ks then some (defaults k) else kw.get? k := by
  induction ks generalizing kw with
  | nil => simp
  | cons j ks ih =>
    rw [List.foldl_cons, ih, kw_set_get]
    by_cases h1 : k ∈ ks
    · simp [h1]
    · by_cases h2 : k = j
      · subst h2; simp
      · simp [h1, h2]

theorem tight_any (defaults : String → V) (kw : Kw V) (ks : List String) (f : String → Bool) :
    (ks.foldl (fun kw k => kw.set k (defaults k)) kw).any (fun p => f p.1) = (ks.any f || kw.any fun p => f p.1) := by
  induction ks generalizing kw with
  | nil => simp
  | cons j ks ih =>
    rw [List.foldl_cons, ih, kw_set_any, List.any_cons]
    cases f j <;> simp

/-- C218: `tight_kw` has no effect on the layout of `wavcomp` and `cwt_vs_stft`: if it has only parameters of `plt.subplots_adjust`, all six get their default values; otherwise there is a
`TypeError`. -/
theorem C218_layout (defaults : String → V) (tight : Option (Kw V)) :
    ((∀ p ∈ tight.getD [], p.1 ∈ adjustKeys) → ∃ kw, tightKw defaults tight = .ok kw ∧ ∀ k, kw.get? k = if k ∈ adjustKeys then some (defaults k) else none) ∧
      ((∃ p ∈ tight.getD [], p.1 ∉ adjustKeys) → tightKw defaults tight = .error .typeError) := by
  constructor
  · intro h
    refine ⟨adjustKeys.foldl (fun kw k => kw.set k (defaults k)) (tight.getD []), ?_, fun k => ?_⟩
    · unfold tightKw
      rw [if_neg]
      rw [tight_any defaults _ _ (fun s => !adjustKeys.contains s)]
      simp only [Bool.or_eq_true, List.any_eq_true, not_or, not_exists, not_and]
      exact ⟨fun k hk => by simp [hk], fun p hp => by simp [h p hp]⟩
    · rw [tight_get]
      by_cases hk : k ∈ adjustKeys
      · simp [hk]
      · rw [if_neg hk, if_neg hk]
        unfold Kw.get?
        rw [List.find?_eq_none.2]
        · rfl
        · intro p hp e
          have : p.1 = k := by simpa using e
          exact hk (this ▸ h p hp)
  · rintro ⟨p, hp, hk⟩
    unfold tightKw
    rw [if_pos]
    rw [tight_any defaults _ _ (fun s => !adjustKeys.contains s)]
    simp only [Bool.or_eq_true, List.any_eq_true]
    exact Or.inr ⟨p, hp, by simp [hk]⟩

theorem mapM_inst (mk : O → Py W) (ws : List W) : (ws.map WavGiven.inst).mapM (initGiven mk) = .ok ws := by
  induction ws with
  | nil => rfl
  | cons w ws ih =>
    rw [List.map_cons, List.mapM_cons, ih]
    rfl

theorem wavcompRows_inst (mk : O → Py W) (n : ℕ) (hn : n ≠ 1) (ws : List W) : wavcompRows mk n (ws.map WavGiven.inst) = .ok ws := by
  induction ws with
  | nil => rfl
  | cons w ws ih =>
    rw [List.map_cons]
    unfold wavcompRows
    rw [ih]
    simp [initGiven, hasName, hn]

/-- C218: with two or more instances of `Wavelet`, `wavcomp` draws one row for each, in order. Missing: one wavelet, wavelets given by name, and the layout asked for (`C218_refuted`). -/
theorem C218_rows_partial (mk : O → Py W) (defaults : String → V) (ws : List W) (h : 2 ≤ ws.length) :
    ∃ kw, wavcomp mk defaults (.many (ws.map WavGiven.inst)) none = .ok (ws, kw) := by
  obtain ⟨kw, hkw, _⟩ := (C218_layout defaults (none : Option (Kw V))).1 (by simp)
  refine ⟨kw, ?_⟩
  unfold wavcomp WavsArg.toList
  simp only [mapM_inst, List.length_map]
  rw [wavcompRows_inst mk _ (by omega)]
  simp [show ws ≠ [] from fun e => by simp [e] at h, hkw, bind, Except.bind, pure, Except.pure]

/-- C218: `wavcomp` with one wavelet never draws anything: the instance fails with an `IndexError`, anything else with the exception of its constructor or an `AttributeError`. -/
theorem C218_one (mk : O → Py W) (defaults : String → V) (g : WavGiven W O) (tight : Option (Kw V)) :
    wavcomp mk defaults (.one g) tight = (match g with
      | .inst _ => .error .indexError
      | .other o => (mk o).bind fun _ => .error .attributeError) ∧
    wavcomp mk defaults (.many [g]) tight = wavcomp mk defaults (.one g) tight := by
  refine ⟨?_, rfl⟩
  unfold wavcomp WavsArg.toList
  cases g with
  | inst w => rfl
  | other o =>
    simp only [List.mapM_cons, List.mapM_nil, initGiven]
    cases hm : mk o with
    | error e => rfl
    | ok w =>
      simp only [bind, Except.bind, pure, Except.pure]
      simp [wavcompRows, initGiven, hm, hasName, bind, Except.bind]

/-- C218: a wavelet given by name among others is never drawn: the call fails. -/
theorem C218_name (mk : O → Py W) (defaults : String → V) (pre post : List (WavGiven W O)) (o : O) (tight : Option (Kw V)) :
    ∃ e, wavcomp mk defaults (.many (pre ++ .other o :: post)) tight = .error e := by
  have key : ∀ (n : ℕ) (pre : List (WavGiven W O)), ∃ e, wavcompRows mk n (pre ++ .other o :: post) = .error e := by
    intro n pre
    induction pre with
    | nil =>
      rw [List.nil_append]
      unfold wavcompRows
      simp only [initGiven, hasName]
      cases mk o with
      | error e => exact ⟨e, rfl⟩
      | ok w => exact ⟨_, rfl⟩
    | cons g pre ih =>
      rw [List.cons_append]
      unfold wavcompRows
      obtain ⟨e, he⟩ := ih
      rw [he]
      cases initGiven mk g with
      | error e => exact ⟨e, rfl⟩
      | ok w =>
        cases hasName g with
        | error e => exact ⟨e, rfl⟩
        | ok w =>
          by_cases hn : n = 1
          · exact ⟨.indexError, by simp [hn, bind, Except.bind]⟩
          · exact ⟨e, by simp [hn, bind, Except.bind]⟩
  unfold wavcomp WavsArg.toList
  cases (pre ++ WavGiven.other o :: post).mapM (initGiven mk) with
  | error e => exact ⟨e, rfl⟩
  | ok ws =>
    obtain ⟨e, he⟩ := key (pre ++ WavGiven.other o :: post).length pre
    refine ⟨e, ?_⟩
    rw [he]
    simp [bind, Except.bind]

/-- C218 in full: one row per wavelet, one or several, given as instances or as anything `Wavelet` takes, in the layout asked for. -/
def C218_full : Prop := ∀ (mk : ℕ → Py ℕ) (defaults : String → ℕ) (a : WavsArg ℕ ℕ) (tight : Kw ℕ) (ws : List ℕ),
  a.toList.mapM (initGiven mk) = .ok ws → ws ≠ [] → (∀ p ∈ tight, p.1 ∈ adjustKeys) →
    ∃ kw, wavcomp mk defaults a (some tight) = .ok (ws, kw) ∧ ∀ p ∈ tight, kw.get? p.1 = tight.get? p.1

/-- C218 is false of the code: of one wavelet, of wavelets given by name, and of every layout that differs from the default. -/
theorem C218_refuted : ¬ C218_full ∧
    (∃ e, wavcomp (fun n : ℕ => (.ok n : Py ℕ)) (fun _ => 0) (.one (.inst 3)) (none : Option (Kw ℕ)) = .error e) ∧
    (∃ e, wavcomp (fun n : ℕ => (.ok n : Py ℕ)) (fun _ => 0) (.many [.inst 3, .other 4]) (none : Option (Kw ℕ)) = .error e) ∧
    ∃ kw, tightKw (fun _ => 0) (some [("left", 7)]) = .ok kw ∧ kw.get? "left" = some 0 := by
  have h1 := (C218_one (fun n : ℕ => (.ok n : Py ℕ)) (fun _ => 0) (.inst 3) (none : Option (Kw ℕ))).1
  refine ⟨fun h => ?_, ⟨_, h1⟩, C218_name _ _ [.inst 3] [] 4 none, ?_⟩
  · obtain ⟨kw, hk, _⟩ := h (fun n => .ok n) (fun _ => 0) (.one (.inst 3)) [] [3] rfl (by simp) (by simp)
    have h2 := (C218_one (fun n : ℕ => (.ok n : Py ℕ)) (fun _ => 0) (.inst 3) (some ([] : Kw ℕ))).1
    rw [h2] at hk
    simp at hk
  · obtain ⟨kw, hk, hg⟩ := (C218_layout (fun _ => 0) (some [("left", 7)])).1 (by simp [adjustKeys])
    exact ⟨kw, hk, by rw [hg]; simp [adjustKeys]⟩

example : ∃ kw, wavcomp (fun n : ℕ => (.ok n : Py ℕ)) (fun _ => 0) (.many [.inst 3, .inst 4]) (none : Option (Kw ℕ)) = .ok ([3, 4], kw) :=
  C218_rows_partial _ _ [3, 4] (by simp)

/-! ## C219: lines -/

namespace Spec

/-- The lines asked for by a documented argument — a number, numbers, or either with options: one at each value, with the options. -/
inductive LinesAsked {V : Type} : LinesArg V → List (ℝ × Kw V) → Prop
  | num (x : ℝ) : LinesAsked (.num x) [(x, [])]
  | list (l : List ℝ) : LinesAsked (.list l) (l.map fun x => (x, []))
  | numKw (x : ℝ) (kw : Kw V) : LinesAsked (.numKw x kw) [(x, kw)]
  | listKw (l : List ℝ) (kw : Kw V) : LinesAsked (.listKw l kw) (l.map fun x => (x, kw))

end Spec

/-- C219: one line at each value asked for, with the options, unless the argument is the number 0. Missing: 0 (`C219_refuted`). -/
theorem C219_lines_partial (a : LinesArg V) (l : List (ℝ × Kw V)) (h : Spec.LinesAsked a l) (h0 : a ≠ .num 0) : drawLines a = .ok l := by
  cases h with
  | num x => rw [drawLines, if_neg]; rintro rfl; exact h0 rfl
  | list l => rfl
  | numKw x kw => rfl
  | listKw l kw => rfl

/-- C219: tuples of two numbers and arrays are refused, not drawn in part. -/
theorem C219_refused (x y : ℝ) (l : List ℝ) : drawLines (.nums x y : LinesArg V) = .error .typeError ∧ drawLines (.array l : LinesArg V) = .error .valueError := ⟨rfl, rfl⟩

/-- C219 in full. -/
def C219_full : Prop := ∀ (a : LinesArg ℕ) (l : List (ℝ × Kw ℕ)), Spec.LinesAsked a l → drawLines a = .ok l

/-- C219 is false of the code: `vlines=0` draws no line, while `vlines=[0]` draws one at 0. -/
theorem C219_refuted : ¬ C219_full ∧ drawLines (.num 0 : LinesArg ℕ) = .ok [] ∧ drawLines (.list [0] : LinesArg ℕ) = .ok [(0, [])] := by
  have h0 : drawLines (.num 0 : LinesArg ℕ) = .ok [] := by rw [drawLines, if_pos rfl]
  refine ⟨fun h => ?_, h0, rfl⟩
  have := h _ _ (.num 0)
  rw [h0] at this
  simp at this

example : drawLines (.numKw (1/2) [("color", 3)] : LinesArg ℕ) = .ok [(1/2, [("color", 3)])] := C219_lines_partial _ _ (.numKw _ _) (by simp)

end Ssq
