import Verif.Model.Title
import Verif.Lemmas.Configs
import Verif.Props.Configs
import Verif.Props.MakeSignals

/-!
# C232: titles of plots
-/
namespace Ssq

/-- The default for option `k` of titles in a configuration file. -/
def Spec.titleDefault (num : PyS → Option ℚ) (txt : PyS) (k : PyS) : Option CfgV :=
  match getGdefaults num txt with
  | .ok g => Spec.lookup g "visuals".toList "_maybe_title".toList k
  | .error _ => none

/-- The user's own options in a `title` argument. -/
def Spec.titleOwn : TitleArg → PyS → Option CfgV
  | .pair _ kw, k => kw.find k
  | _, _ => none

/-- The text of a `title` argument. -/
def Spec.titleText : TitleArg → Option PyS
  | .none => none
  | .text t => some t
  | .pair t _ => some t

/-- C232 in full: drawing changes no argument, and the options drawn are the user's, otherwise those of the file at the time. -/
def C232_full : Prop := (∀ (num : PyS → Option ℚ) (txt : PyS) (a a' : TitleArg) (d : Option (PyS × PyDict CfgV)), maybeTitle num txt a = .ok (d, a') → a' = a) ∧ ∀ (num : PyS → Option ℚ) (txts : List PyS) (a : TitleArg) (l : List (Option (PyS × PyDict CfgV))), titleRuns num txts a = .ok l →
  ∀ i < txts.length, ∀ t o, l.getD i none = some (t, o) → ∀ k, o.find k = (Spec.titleOwn a k).or (Spec.titleDefault num (txts.getD i []) k)

theorem find_gdAll (D kw : PyDict CfgV) (k : PyS) : (gdAll D kw).find k = (kw.find k).or (D.find k) := by
  unfold gdAll
  induction D generalizing kw with
  | nil => simp [PyDict.find]
  | cons e d ih =>
    rw [List.foldl_cons, ih, find_cons]
    by_cases h : kw.find e.1 = none
    · rw [if_pos h, find_set]
      by_cases h1 : e.1 = k
      · rw [if_pos h1, if_pos h1, ← h1, h]; rfl
      · rw [if_neg h1, if_neg h1]
    · rw [if_neg h]
      by_cases h1 : e.1 = k
      · rw [← h1]
        obtain ⟨v, hv⟩ := Option.ne_none_iff_exists'.1 h
        rw [hv]; rfl
      · rw [if_neg h1]

theorem titleGd (num : PyS → Option ℚ) (txt : PyS) (r : GdRet) (h : gdefaults num txt "visuals._maybe_title".toList true (some true) false [] = .ok r) :
    ∃ D, r = .dict D ∧ ∀ k, D.find k = Spec.titleDefault num txt k := by
  unfold gdefaults at h
  unfold Spec.titleDefault
  cases hg : getGdefaults num txt with
  | error e => rw [hg] at h; cases h
  | ok g =>
    rw [hg] at h
    have e : splitModObj "visuals._maybe_title".toList = ("visuals".toList, "_maybe_title".toList) := by decide
    simp only [e] at h
    cases h
    refine ⟨_, rfl, fun k => ?_⟩
    simp only [Spec.lookup]
    unfold gdKw
    cases h1 : g.find "visuals".toList with
    | none => rfl
    | some m =>
      simp only [Option.bind_some]
      cases h2 : PyDict.find m "_maybe_title".toList with
      | none => rfl
      | some D =>
        simp only [Option.bind_some, if_true, Bool.false_eq_true, if_false]
        rw [find_gdAll]; rfl

/-- One title: None draws nothing; otherwise the text is drawn with the user's options, and the file's for those not given (an option given as None stays None). The
argument is afterwards as before, except that a dict has the file's options too. -/
theorem C232_one (num : PyS → Option ℚ) (txt : PyS) (a a' : TitleArg) (d : Option (PyS × PyDict CfgV)) (h : maybeTitle num txt a = .ok (d, a')) :
    d.map (·.1) = Spec.titleText a ∧ (∀ t o, d = some (t, o) → ∀ k, o.find k = (Spec.titleOwn a k).or (Spec.titleDefault num txt k)) ∧
    Spec.titleText a' = Spec.titleText a ∧ ((∀ t kw, a ≠ .pair t kw) → a' = a) ∧
    ∀ t kw, a = .pair t kw → ∃ kw', a' = .pair t kw' ∧ ∀ k, kw'.find k = (kw.find k).or (Spec.titleDefault num txt k) := by
  cases a with
  | none =>
    cases h
    refine ⟨rfl, ?_, rfl, fun _ => rfl, ?_⟩ <;> intro _ _ h <;> cases h
  | text t =>
    unfold maybeTitle at h
    cases hg : gdefaults num txt "visuals._maybe_title".toList true (some true) false [] with
    | error e => rw [hg] at h; cases h
    | ok r =>
      obtain ⟨D, rfl, hD⟩ := titleGd _ _ _ hg
      rw [hg] at h
      cases h
      refine ⟨rfl, fun t' o ho k => ?_, rfl, fun _ => rfl, fun _ _ h => by cases h⟩
      cases ho
      rw [find_merge, hD]; rfl
  | pair t kw =>
    unfold maybeTitle at h
    cases hg : gdefaults num txt "visuals._maybe_title".toList true (some true) false [] with
    | error e => rw [hg] at h; cases h
    | ok r =>
      obtain ⟨D, rfl, hD⟩ := titleGd _ _ _ hg
      rw [hg] at h
      cases h
      refine ⟨rfl, fun t' o ho k => ?_, rfl, fun hn => absurd rfl (hn t kw), fun t' kw' h => ?_⟩
      · cases ho
        rw [find_merge, hD]; rfl
      · cases h
        exact ⟨_, rfl, fun k => by rw [find_merge, hD]⟩

/-- The first default for option `k` among some files. -/
def Spec.firstDefault (num : PyS → Option ℚ) (txts : List PyS) (k : PyS) : Option CfgV := txts.findSome? fun t => Spec.titleDefault num t k

/-- Option `k` of the title in plot `i`: for a dict, the user's, or the first file's that has it; for a text alone, the current file's. -/
def Spec.titleShown (num : PyS → Option ℚ) (txts : List PyS) (i : ℕ) (k : PyS) : TitleArg → Option CfgV
  | .pair _ kw => (kw.find k).or (Spec.firstDefault num (txts.take (i + 1)) k)
  | _ => Spec.titleDefault num (txts.getD i []) k

/-- Any number of plots with the same title, the file changing in between: the text is the same each time. A text alone takes its options from the file of the time. With a
dict, an option not given is that of the FIRST file that has it, not of the current one. (C232_full asks for the current one: false, see `C232_refuted`.) -/
theorem C232_runs_partial (num : PyS → Option ℚ) (txts : List PyS) (a : TitleArg) (l : List (Option (PyS × PyDict CfgV))) (h : titleRuns num txts a = .ok l) :
    l.length = txts.length ∧ ∀ i < txts.length, (l.getD i none).map (·.1) = Spec.titleText a ∧
      ∀ t o, l.getD i none = some (t, o) → ∀ k, o.find k = Spec.titleShown num txts i k a := by
  induction txts generalizing a l with
  | nil => cases h; exact ⟨rfl, fun i hi => absurd hi (by simp)⟩
  | cons x xs ih =>
    unfold titleRuns at h
    cases h1 : maybeTitle num x a with
    | error e => rw [h1] at h; cases h
    | ok r =>
      obtain ⟨d, a'⟩ := r
      rw [h1] at h
      simp only [Except.bind] at h
      cases h2 : titleRuns num xs a' with
      | error e => rw [h2] at h; cases h
      | ok l' =>
        rw [h2] at h
        cases h
        obtain ⟨o1, o2, o3, o4, o5⟩ := C232_one _ _ _ _ _ h1
        obtain ⟨il, ih⟩ := ih _ _ h2
        refine ⟨by simp [il], fun i hi => ?_⟩
        cases i with
        | zero =>
          refine ⟨o1, fun t o ho k => ?_⟩
          rw [o2 t o ho k]
          cases a with
          | none => rfl
          | text t => rfl
          | pair t kw => simp [Spec.titleOwn, Spec.titleShown, Spec.firstDefault]
        | succ i =>
          obtain ⟨j1, j2⟩ := ih i (by simpa using hi)
          simp only [List.getD_cons_succ]
          refine ⟨j1.trans o3, fun t o ho k => ?_⟩
          rw [j2 t o ho k]
          cases a with
          | none => rw [o4 (by simp)]; rfl
          | text t => rw [o4 (by simp)]; rfl
          | pair t kw =>
            obtain ⟨kw', rfl, hk⟩ := o5 t kw rfl
            simp only [Spec.titleShown, hk k, Spec.firstDefault, List.take_succ_cons, List.findSome?_cons]
            cases kw.find k <;> cases Spec.titleDefault num x k <;> rfl

/-- With one and the same file the titles are as C232 asks, however many plots use the dict. -/
theorem C232_same_file (num : PyS → Option ℚ) (txt : PyS) (n : ℕ) (a : TitleArg) (l : List (Option (PyS × PyDict CfgV)))
    (h : titleRuns num (List.replicate n txt) a = .ok l) (i : ℕ) (hi : i < n) (t : PyS) (o : PyDict CfgV) (ho : l.getD i none = some (t, o)) (k : PyS) :
    o.find k = (Spec.titleOwn a k).or (Spec.titleDefault num txt k) := by
  obtain ⟨-, h2⟩ := C232_runs_partial _ _ _ _ h
  have e := (h2 i (by simpa using hi)).2 t o ho k
  have hg : (List.replicate n txt).getD i [] = txt := by
    rw [List.getD_eq_getElem _ _ (by simpa using hi), List.getElem_replicate]
  rw [e]
  unfold Spec.titleShown
  cases a with
  | none => simp only [hg]; rfl
  | text t => simp only [hg]; rfl
  | pair t kw =>
    have ht : (List.replicate n txt).take (i + 1) = List.replicate (i + 1) txt := by
      rw [List.take_replicate, min_eq_left (by omega)]
    have hf : Spec.firstDefault num (List.replicate (i + 1) txt) k = Spec.titleDefault num txt k := by
      unfold Spec.firstDefault
      cases hd : Spec.titleDefault num txt k with
      | none => simp [hd]
      | some v => simp [List.replicate_succ, hd]
    simp only [ht, hf, Spec.titleOwn]

/-- Two configuration files. -/
def titleFile (v : String) : PyS := ("## visuals\n# _maybe_title\nloc=" ++ v ++ "\n#### END").toList

theorem titleRuns_ex : titleRuns (fun _ => none) [titleFile "left", titleFile "right"] (.pair ['A'] []) =
    .ok [some (['A'], [("loc".toList, .str "left".toList)]), some (['A'], [("loc".toList, .str "left".toList)])] := by rfl

/-- A dict of options reused after the file was edited still has the old file's options: they were written into it. -/
theorem C232_refuted : ¬ C232_full := by
  intro h
  have := h.2 _ _ _ _ titleRuns_ex 1 (by decide) ['A'] [("loc".toList, .str "left".toList)] rfl "loc".toList
  revert this
  decide

/-- The argument is changed: a dict without options has them afterwards. -/
theorem C232_changed : maybeTitle (fun _ => none) (titleFile "left") (.pair ['A'] []) = .ok (some (['A'], [("loc".toList, .str "left".toList)]), .pair ['A'] [("loc".toList, .str "left".toList)]) := by
  rfl

example : titleRuns (fun _ => none) (List.replicate 2 (titleFile "left")) (.pair ['A'] [("loc".toList, .none)]) = .ok [some (['A'], [("loc".toList, .none)]), some (['A'], [("loc".toList, .none)])] := by
  rfl

end Ssq
