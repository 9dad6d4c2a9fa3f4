import Verif.Model.SavePath
import Mathlib.Tactic.Linarith
import Mathlib.Data.List.Infix
import Mathlib.Tactic.Push

/-!
# C131: `wavelet_tf_anim` never overwrites a file
-/
namespace Ssq

/-- What is used of `int`: it reads back the decimal digits of a natural number. -/
def Spec.ReadsDigits (pyInt : List Char → Option ℤ) : Prop := ∀ n : ℕ, pyInt (Nat.toDigits 10 n) = some (n : ℤ)

/-- The claim: whatever the directory holds, a path is returned, and no file has it. -/
def C131_full : Prop :=
  ∀ (pyInt : List Char → Option ℤ) (isFile : List Char → Bool) (dir : List (List Char)) (name : List Char),
    Spec.ReadsDigits pyInt → (∀ n, isFile n = true → n ∈ dir) → name ≠ [] →
    ∃ out, uniqueSavepath pyInt isFile dir name = .ok out ∧ isFile out = false

theorem rfindDot_nodot (a b : List Char) (h : '.' ∉ b) : rfindDot (a ++ b) = rfindDot a := by
  induction a with
  | nil =>
    induction b with
    | nil => rfl
    | cons c cs ih =>
      have h1 : '.' ∉ cs := fun hh => h (List.mem_cons_of_mem _ hh)
      have h2 : c ≠ '.' := fun hh => h (by simp [hh])
      have := ih h1
      simp only [List.nil_append, rfindDot] at this ⊢
      simp [this, h2]
  | cons c cs ih => simp only [List.cons_append, rfindDot, ih]

theorem rfindDot_dot (a b : List Char) (h : '.' ∉ b) : rfindDot (a ++ '.' :: b) = some a.length := by
  induction a with
  | nil =>
    have := rfindDot_nodot [] b h
    simp only [List.nil_append] at this
    simp [rfindDot, this]
  | cons c cs ih => simp [List.cons_append, rfindDot, ih]

theorem rfindDot_none (a : List Char) (h : rfindDot a = none) : '.' ∉ a := by
  induction a with
  | nil => simp
  | cons c cs ih =>
    simp only [rfindDot] at h
    cases e : rfindDot cs with
    | some i => simp [e] at h
    | none =>
      simp only [e] at h
      by_cases hc : c = '.'
      · simp [hc] at h
      · simp only [List.mem_cons, not_or]
        exact ⟨fun hh => hc hh.symm, ih e⟩

theorem rfindDot_some (a : List Char) (i : ℕ) (h : rfindDot a = some i) : ∃ p q, a = p ++ '.' :: q ∧ p.length = i ∧ '.' ∉ q := by
  induction a generalizing i with
  | nil => simp [rfindDot] at h
  | cons c cs ih =>
    simp only [rfindDot] at h
    cases e : rfindDot cs with
    | some j =>
      simp only [e, Option.some.injEq] at h
      obtain ⟨p, q, h1, h2, h3⟩ := ih j e
      exact ⟨c :: p, q, by simp [h1], by simp [h2, h], h3⟩
    | none =>
      simp only [e] at h
      by_cases hc : c = '.'
      · simp only [hc, if_true, Option.some.injEq] at h
        exact ⟨[], cs, by simp [hc], by simpa using h, rfindDot_none cs e⟩
      · simp [hc] at h

/-- A name is its stem followed by its suffix. -/
theorem stem_suffix (name : List Char) : pathStem name ++ pathSuffix name = name := by
  unfold pathStem pathSuffix
  cases e : rfindDot name with
  | none => simp
  | some i =>
    simp only
    split
    · rename_i h
      rw [List.length_drop, show name.length - (name.length - i) = i by omega, List.take_append_drop]
    · simp

/-- Adding digits to the stem adds them to the stem that `pathlib` reads back. -/
theorem stem_digits (name d : List Char) (hd : '.' ∉ d) (hlast : name.getLast? ≠ some '.') :
    pathStem (pathStem name ++ d ++ pathSuffix name) = pathStem name ++ d := by
  cases e : rfindDot name with
  | none =>
    have hs : pathSuffix name = [] := by simp [pathSuffix, e]
    have ht : pathStem name = name := by simp [pathStem, hs]
    have e' : rfindDot (name ++ d) = none := by rw [rfindDot_nodot _ _ hd, e]
    rw [hs, ht, List.append_nil]
    simp [pathStem, pathSuffix, e']
  | some i =>
    obtain ⟨p, q, h1, h2, h3⟩ := rfindDot_some name i e
    have hq : q ≠ [] := by
      rintro rfl
      exact hlast (by simp [h1])
    have hql : 0 < q.length := List.length_pos_iff.2 hq
    have hlen : name.length = i + 1 + q.length := by rw [h1, ← h2]; simp; omega
    by_cases hi : 0 < i
    · have hs : pathSuffix name = '.' :: q := by
        simp only [pathSuffix, e]
        rw [if_pos ⟨hi, by omega⟩, h1, ← h2, List.drop_left]
      have ht : pathStem name = p := by
        have := stem_suffix name
        rw [hs] at this
        nth_rewrite 2 [h1] at this
        exact List.append_cancel_right this
      rw [hs, ht]
      have e' : rfindDot (p ++ d ++ '.' :: q) = some (p ++ d).length := rfindDot_dot _ _ h3
      have hs' : pathSuffix (p ++ d ++ '.' :: q) = '.' :: q := by
        simp only [pathSuffix, e']
        rw [if_pos ⟨by rw [List.length_append]; omega, by simp; omega⟩, List.drop_left]
      have := stem_suffix (p ++ d ++ '.' :: q)
      rw [hs'] at this
      exact List.append_cancel_right this
    · have hs : pathSuffix name = [] := by simp [pathSuffix, e, hi]
      have ht : pathStem name = name := by simp [pathStem, hs]
      have e' : rfindDot (name ++ d) = some i := by rw [rfindDot_nodot _ _ hd, e]
      rw [hs, ht, List.append_nil]
      simp [pathStem, pathSuffix, e', hi]

theorem pyRemove_none (pat s : List Char) (h : ∀ t, t <:+ s → t ≠ [] → ¬ pat <+: t) : pyRemove pat s = s := by
  induction s with
  | nil => simp [pyRemove]
  | cons c cs ih =>
    rw [pyRemove, if_neg]
    · rw [ih fun t ht hne => h t (ht.trans (List.suffix_cons c cs)) hne]
    · rw [List.isPrefixOf_iff_prefix]
      exact h (c :: cs) (List.suffix_refl _) (by simp)

/-- Removing the stem from the stem followed by digits leaves the digits, if the stem is not made of digits only. -/
theorem pyRemove_digits (pat d : List Char) (x : Char) (hx : x ∈ pat) (hd : x ∉ d) : pyRemove pat (pat ++ d) = d := by
  cases pat with
  | nil => simp at hx
  | cons c cs =>
    rw [List.cons_append, pyRemove, if_pos (by rw [List.isPrefixOf_iff_prefix]; exact ⟨d, rfl⟩)]
    have : (cs ++ d).drop ((c :: cs).length - 1) = d := by simp
    rw [this]
    apply pyRemove_none
    rintro t ht - hp
    exact hd (ht.subset (hp.subset hx))

theorem savepathMax_le (pyInt : List Char → Option ℤ) (sv : List Char) (l : List (List Char)) (m r : ℤ)
    (h : savepathMax pyInt sv m l = .ok r) :
    m ≤ r ∧ ∀ s ∈ l, pyRemove sv s ≠ [] → ∃ v, pyInt (pyRemove sv s) = some v ∧ v ≤ r := by
  induction l generalizing m with
  | nil =>
    simp only [savepathMax, Except.ok.injEq] at h
    exact ⟨h.le, by simp⟩
  | cons s ss ih =>
    simp only [savepathMax] at h
    cases e : savepathStep pyInt sv m s with
    | error x => rw [e] at h; simp [Except.bind] at h
    | ok m' =>
      rw [e] at h
      obtain ⟨h1, h2⟩ := ih m' h
      unfold savepathStep at e
      by_cases hr : pyRemove sv s = []
      · rw [if_pos hr, Except.ok.injEq] at e
        refine ⟨by omega, ?_⟩
        intro s' hs' hne
        rcases List.mem_cons.1 hs' with rfl | hs'
        · exact absurd hr hne
        · exact h2 s' hs' hne
      · rw [if_neg hr] at e
        cases ev : pyInt (pyRemove sv s) with
        | none => rw [ev] at e; simp at e
        | some v =>
          rw [ev] at e
          simp only [Except.ok.injEq] at e
          have hm : m ≤ m' ∧ v ≤ m' := by
            rw [← e]; split <;> constructor <;> omega
          refine ⟨by omega, ?_⟩
          intro s' hs' hne
          rcases List.mem_cons.1 hs' with rfl | hs'
          · exact ⟨v, ev, by omega⟩
          · exact h2 s' hs' hne

theorem savepathMax_ok (pyInt : List Char → Option ℤ) (sv : List Char) (l : List (List Char)) (m : ℤ) :
    (∃ r, savepathMax pyInt sv m l = .ok r) ↔ ∀ s ∈ l, pyRemove sv s ≠ [] → pyInt (pyRemove sv s) ≠ none := by
  induction l generalizing m with
  | nil => simp [savepathMax]
  | cons s ss ih =>
    simp only [savepathMax, List.forall_mem_cons]
    by_cases hr : pyRemove sv s = []
    · simp [savepathStep, hr, Except.bind, ih]
    · cases ev : pyInt (pyRemove sv s) with
      | none => simp [savepathStep, hr, ev, Except.bind]
      | some v => simp [savepathStep, hr, ev, Except.bind, ih]

theorem savepathMax_error (pyInt : List Char → Option ℤ) (sv : List Char) (l : List (List Char)) (m : ℤ) (e : PyErr)
    (h : savepathMax pyInt sv m l = .error e) : e = .valueError := by
  induction l generalizing m with
  | nil => simp [savepathMax] at h
  | cons s ss ih =>
    simp only [savepathMax] at h
    cases es : savepathStep pyInt sv m s with
    | ok m' => rw [es] at h; exact ih m' h
    | error x =>
      rw [es] at h
      simp only [Except.bind, Except.error.injEq] at h
      subst h
      unfold savepathStep at es
      split at es
      · simp at es
      · split at es
        · simpa using es.symm
        · simp at es

/-- C131: the part that holds. If the stem of the requested name has a character that is not a digit, and the name does not end
with a dot, then a path that is returned is no file, and it is the requested one or differs from it by a number added to the stem. -/
theorem C131_partial (pyInt : List Char → Option ℤ) (isFile : List Char → Bool) (dir : List (List Char)) (name out : List Char)
    (hint : Spec.ReadsDigits pyInt) (hdir : ∀ n, isFile n = true → n ∈ dir)
    (hstem : ∃ c ∈ pathStem name, c.isDigit = false) (hlast : name.getLast? ≠ some '.')
    (h : uniqueSavepath pyInt isFile dir name = .ok out) :
    isFile out = false ∧ (out = name ∨ ∃ n : ℕ, 1 ≤ n ∧ out = pathStem name ++ Nat.toDigits 10 n ++ pathSuffix name) := by
  unfold uniqueSavepath at h
  by_cases hf : isFile name = true
  swap
  · rw [if_neg hf, Except.ok.injEq] at h
    subst h
    exact ⟨by simpa using hf, Or.inl rfl⟩
  rw [if_pos hf] at h
  cases e : savepathMax pyInt (pathStem name) 0 (siblingStems dir (pathStem name)) with
  | error x => rw [e] at h; simp [Except.bind] at h
  | ok m =>
    rw [e] at h
    simp only [Except.bind, Except.ok.injEq] at h
    obtain ⟨h1, h2⟩ := savepathMax_le _ _ _ _ _ e
    obtain ⟨n, hn⟩ : ∃ n : ℕ, m + 1 = n := ⟨(m + 1).toNat, by omega⟩
    have hstr : pyStr (m + 1) = Nat.toDigits 10 n := by
      rw [pyStr, if_neg (by omega), hn]
      simp
    rw [hstr] at h
    refine ⟨?_, Or.inr ⟨n, by omega, h.symm⟩⟩
    by_contra hc
    have hc : isFile out = true := by simpa using hc
    obtain ⟨c, hc1, hc2⟩ := hstem
    have hdig : ∀ x ∈ Nat.toDigits 10 n, x.isDigit = true := fun x hx => Nat.isDigit_of_mem_toDigits (by decide) (by decide) hx
    have hnd : '.' ∉ Nat.toDigits 10 n := fun hx => by simpa using hdig _ hx
    have hcd : c ∉ Nat.toDigits 10 n := fun hx => by simp [hdig _ hx] at hc2
    have hst : pathStem out = pathStem name ++ Nat.toDigits 10 n := by rw [← h]; exact stem_digits _ _ hnd hlast
    have hrem := pyRemove_digits (pathStem name) (Nat.toDigits 10 n) c hc1 hcd
    obtain ⟨v, hv1, hv2⟩ := h2 (pathStem out) (by
      rw [siblingStems, List.mem_filter]
      refine ⟨List.mem_map_of_mem (hdir _ hc), ?_⟩
      rw [hst]
      exact decide_eq_true ((List.prefix_append _ _).isInfix)) (by rw [hst, hrem]; exact Nat.toDigits_ne_nil)
    rw [hst, hrem, hint n, Option.some.injEq] at hv1
    omega

theorem forall_siblings (dir : List (List Char)) (sv : List Char) (P : List Char → Prop) :
    (∀ s ∈ siblingStems dir sv, P s) ↔ ∀ p ∈ dir, sv <:+: pathStem p → P (pathStem p) := by
  simp only [siblingStems, List.mem_filter, List.mem_map, decide_eq_true_eq, and_imp, forall_exists_index, forall_apply_eq_imp_iff₂]

/-- C131: when it fails. A path is returned exactly when the requested one is free, or what is left of every entry's stem, once the
requested stem is removed from it, is empty or an integer; otherwise `ValueError` is raised. -/
theorem C131_fails (pyInt : List Char → Option ℤ) (isFile : List Char → Bool) (dir : List (List Char)) (name : List Char) :
    ((∃ out, uniqueSavepath pyInt isFile dir name = .ok out) ↔
      (isFile name = false ∨ ∀ p ∈ dir, pathStem name <:+: pathStem p → pyRemove (pathStem name) (pathStem p) ≠ [] →
        pyInt (pyRemove (pathStem name) (pathStem p)) ≠ none)) ∧
    ∀ e, uniqueSavepath pyInt isFile dir name = .error e → e = .valueError := by
  unfold uniqueSavepath
  by_cases hf : isFile name = true
  · simp only [hf, if_true]
    constructor
    · have := savepathMax_ok pyInt (pathStem name) (siblingStems dir (pathStem name)) 0
      rw [forall_siblings] at this
      simp only [Bool.true_eq_false, false_or]
      refine Iff.trans ?_ this
      constructor
      · rintro ⟨out, ho⟩
        cases e : savepathMax pyInt (pathStem name) 0 (siblingStems dir (pathStem name)) with
        | error x => rw [e] at ho; simp [Except.bind] at ho
        | ok m => exact ⟨m, rfl⟩
      · rintro ⟨m, hm⟩
        exact ⟨_, by rw [hm]; rfl⟩
    · intro e he
      cases e' : savepathMax pyInt (pathStem name) 0 (siblingStems dir (pathStem name)) with
      | error x =>
        rw [e'] at he
        simp only [Except.bind, Except.error.injEq] at he
        rw [← he]
        exact savepathMax_error _ _ _ _ _ e'
      | ok m => rw [e'] at he; simp [Except.bind] at he
  · simp [hf]

/-- C131: a name that is free is used as it is. -/
theorem C131_free (pyInt : List Char → Option ℤ) (isFile : List Char → Bool) (dir : List (List Char)) (name : List Char)
    (h : isFile name = false) : uniqueSavepath pyInt isFile dir name = .ok name := by
  simp [uniqueSavepath, h]

/-- An `int` for the witnesses: decimal digits, nothing else. -/
def digitsInt (s : List Char) : Option ℤ := if s.all Char.isDigit then some (Nat.ofDigitChars 10 s 0 : ℤ) else none

theorem digitsInt_reads : Spec.ReadsDigits digitsInt := by
  intro n
  have h : (Nat.toDigits 10 n).all Char.isDigit = true := by
    rw [List.all_eq_true]
    exact fun x hx => Nat.isDigit_of_mem_toDigits (by decide) (by decide) hx
  rw [digitsInt, if_pos h, Nat.ofDigitChars_toDigits (by decide) (by decide)]

theorem digitsInt_none (s : List Char) (c : Char) (hc : c ∈ s) (hd : c.isDigit = false) : digitsInt s = none := by
  rw [digitsInt, if_neg]
  rw [List.all_eq_true]
  intro h
  simp [h c hc] at hd

/-- C131 is false of the code: with `1.gif` and `11.gif` in the directory, `1.gif` is to be saved as `11.gif`, which exists. -/
theorem C131_overwrites (pyInt : List Char → Option ℤ) :
    uniqueSavepath pyInt (fun n => decide (n ∈ ["1.gif".toList, "11.gif".toList])) ["1.gif".toList, "11.gif".toList] "1.gif".toList =
      .ok "11.gif".toList := by
  have h1 : pathStem "1.gif".toList = ['1'] := by decide
  have h2 : pathStem "11.gif".toList = ['1', '1'] := by decide
  have h3 : pathSuffix "1.gif".toList = ".gif".toList := by decide
  have r1 : pyRemove ['1'] ['1'] = [] := by simp [pyRemove]
  have r2 : pyRemove ['1'] ['1', '1'] = [] := by simp [pyRemove]
  have i1 : ['1'] <:+: ['1', '1'] := ⟨[], ['1'], rfl⟩
  have hs : pyStr (0 + 1) = ['1'] := by decide
  simp only [uniqueSavepath, siblingStems, h1, h2, h3, List.map_cons, List.map_nil, List.filter_cons, List.infix_refl, decide_true, i1, if_true,
    List.filter_nil, savepathMax, savepathStep, r1, r2, Except.bind, hs]
  rfl

/-- C131 is false of the code. -/
theorem C131_refuted : ¬ C131_full := by
  intro h
  obtain ⟨out, h1, h2⟩ := h digitsInt (fun n => decide (n ∈ ["1.gif".toList, "11.gif".toList])) ["1.gif".toList, "11.gif".toList]
    "1.gif".toList digitsInt_reads (by intro n hn; simpa using hn) (by decide)
  rw [C131_overwrites, Except.ok.injEq] at h1
  subst h1
  simp at h2

/-- C131: nor is a path always returned. With `w.gif` and `w_.gif` in the directory, asking for `w.gif` fails. -/
theorem C131_fails_refuted : uniqueSavepath digitsInt (fun n => decide (n ∈ ["w.gif".toList, "w_.gif".toList]))
    ["w.gif".toList, "w_.gif".toList] "w.gif".toList = .error .valueError := by
  have h1 : pathStem "w.gif".toList = ['w'] := by decide
  have h2 : pathStem "w_.gif".toList = ['w', '_'] := by decide
  have r1 : pyRemove ['w'] ['w'] = [] := by simp [pyRemove]
  have r2 : pyRemove ['w'] ['w', '_'] = ['_'] := by simp [pyRemove]
  have i1 : ['w'] <:+: ['w', '_'] := ⟨[], ['_'], rfl⟩
  have hs : digitsInt ['_'] = none := digitsInt_none _ '_' (by simp) (by decide)
  have hm : ("w.gif".toList ∈ ["w.gif".toList, "w_.gif".toList]) := by simp
  simp only [uniqueSavepath, siblingStems, h1, h2, List.map_cons, List.map_nil, List.filter_cons, List.infix_refl, decide_true, i1, if_true,
    List.filter_nil, savepathMax, savepathStep, r1, r2, Except.bind, hs, hm]
  rfl

/-- A trailing dot is enough: `a.` and `a.1` in the directory, and `a.` is to be saved as `a.1`. -/
theorem C131_dot_refuted : uniqueSavepath digitsInt (fun n => decide (n ∈ ["a.".toList, "a.1".toList]))
    ["a.".toList, "a.1".toList] "a.".toList = .ok "a.1".toList := by
  have h1 : pathStem "a.".toList = ['a', '.'] := by decide
  have h2 : pathStem "a.1".toList = ['a'] := by decide
  have h3 : pathSuffix "a.".toList = [] := by decide
  have r1 : pyRemove ['a', '.'] ['a', '.'] = [] := by simp [pyRemove]
  have i1 : ¬ ['a', '.'] <:+: ['a'] := by intro h; simpa using h.length_le
  have hs : pyStr (0 + 1) = ['1'] := by decide
  have hm : ("a.".toList ∈ ["a.".toList, "a.1".toList]) := by simp
  simp only [uniqueSavepath, siblingStems, h1, h2, h3, List.map_cons, List.map_nil, List.filter_cons, List.infix_refl, decide_true, i1, if_true,
    List.filter_nil, savepathMax, savepathStep, r1, Except.bind, hs, hm, decide_false]
  rfl

/-- The hypotheses of `C131_partial` are met, with the file and a numbered one there. -/
example : ∃ (isFile : List Char → Bool) (dir : List (List Char)), (∀ n, isFile n = true → n ∈ dir) ∧
    isFile "w.gif".toList = true ∧ (∃ c ∈ pathStem "w.gif".toList, c.isDigit = false) ∧
    "w.gif".toList.getLast? ≠ some '.' ∧ uniqueSavepath digitsInt isFile dir "w.gif".toList = .ok "w8.gif".toList := by
  refine ⟨fun n => decide (n ∈ ["w.gif".toList, "w7.gif".toList]), ["w.gif".toList, "w7.gif".toList], by intro n hn; simpa using hn,
    by simp, ⟨'w', by decide, by decide⟩, by decide, ?_⟩
  have h1 : pathStem "w.gif".toList = ['w'] := by decide
  have h2 : pathStem "w7.gif".toList = ['w', '7'] := by decide
  have h3 : pathSuffix "w.gif".toList = ".gif".toList := by decide
  have r1 : pyRemove ['w'] ['w'] = [] := by simp [pyRemove]
  have r2 : pyRemove ['w'] ['w', '7'] = ['7'] := by simp [pyRemove]
  have i1 : ['w'] <:+: ['w', '7'] := ⟨[], ['7'], rfl⟩
  have hs : digitsInt ['7'] = some 7 := by decide
  have hm : ("w.gif".toList ∈ ["w.gif".toList, "w7.gif".toList]) := by simp
  have hv : pyStr (7 + 1) = ['8'] := by decide
  simp only [uniqueSavepath, siblingStems, h1, h2, h3, List.map_cons, List.map_nil, List.filter_cons, List.infix_refl, decide_true, i1,
    if_true, List.filter_nil, savepathMax, savepathStep, r1, r2, Except.bind, hs, hm]
  rfl

end Ssq
