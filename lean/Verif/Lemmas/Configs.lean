import Verif.Model.Configs
import Mathlib.Data.List.Nodup

/-!
# Lemmas on strings, dictionaries and the configuration parser
-/
namespace Ssq

/-! ## Strings -/

theorem pyLstrip_spaces (c : Char) (a : ℕ) (s : PyS) : pyLstrip c (List.replicate a c ++ s) = pyLstrip c s := by
  induction a with
  | zero => rfl
  | succ a ih => rw [List.replicate_succ, List.cons_append]; simpa [pyLstrip] using ih

theorem pyLstrip_core (c : Char) (s : PyS) (h : s.head? ≠ some c) : pyLstrip c s = s := by
  cases s with
  | nil => rfl
  | cons a s =>
    have : a ≠ c := fun e => h (by simp [e])
    simp [pyLstrip, this]

theorem head?_append_replicate {c : Char} {s : PyS} {d : ℕ} (h1 : s ≠ []) (h : s.head? ≠ some c) :
    (s ++ List.replicate d c).head? ≠ some c := by
  cases s with
  | nil => exact absurd rfl h1
  | cons a s => simpa using h

/-- Stripping padding off text that neither begins nor ends with the padding character. -/
theorem pyStrip_core (c : Char) (a d : ℕ) (s : PyS) (h1 : s.head? ≠ some c) (h2 : s.getLast? ≠ some c) :
    pyStrip c (List.replicate a c ++ s ++ List.replicate d c) = s := by
  unfold pyStrip
  rw [List.append_assoc, pyLstrip_spaces]
  by_cases hs : s = []
  · subst hs
    have : pyLstrip c ([] ++ List.replicate d c) = [] := by
      have := pyLstrip_spaces c d []
      rw [List.append_nil] at this
      rw [List.nil_append, this]; rfl
    rw [this]; rfl
  · rw [pyLstrip_core c _ (head?_append_replicate hs h1), List.reverse_append, List.reverse_replicate, pyLstrip_spaces,
      pyLstrip_core c _ (by rw [List.head?_reverse]; exact h2), List.reverse_reverse]

theorem pyStrip_id (c : Char) (s : PyS) (h1 : s.head? ≠ some c) (h2 : s.getLast? ≠ some c) : pyStrip c s = s := by
  simpa using pyStrip_core c 0 0 s h1 h2

theorem pyStrip_left (c : Char) (a : ℕ) (s : PyS) (h1 : s.head? ≠ some c) (h2 : s.getLast? ≠ some c) :
    pyStrip c (List.replicate a c ++ s) = s := by
  simpa using pyStrip_core c a 0 s h1 h2

theorem pyStrip_right (c : Char) (d : ℕ) (s : PyS) (h1 : s.head? ≠ some c) (h2 : s.getLast? ≠ some c) :
    pyStrip c (s ++ List.replicate d c) = s := by
  simpa using pyStrip_core c 0 d s h1 h2

theorem pySplit_ne_nil (c : Char) (s : PyS) : pySplit c s ≠ [] := by
  cases s with
  | nil => simp [pySplit]
  | cons a s =>
    unfold pySplit
    split_ifs
    · simp
    · split <;> simp

theorem pySplit_none (c : Char) (s : PyS) (h : c ∉ s) : pySplit c s = [s] := by
  induction s with
  | nil => rfl
  | cons a s ih =>
    have ha : (a == c) = false := by simp; rintro rfl; exact h List.mem_cons_self
    unfold pySplit
    rw [ha, ih fun hc => h (List.mem_cons_of_mem _ hc)]
    rfl

theorem pySplit_append (c : Char) (s t : PyS) (h : c ∉ s) : pySplit c (s ++ c :: t) = s :: pySplit c t := by
  induction s with
  | nil => simp [pySplit]
  | cons a s ih =>
    have ha : (a == c) = false := by simp; rintro rfl; exact h List.mem_cons_self
    rw [List.cons_append]
    conv_lhs => unfold pySplit
    rw [ha, ih fun hc => h (List.mem_cons_of_mem _ hc)]
    rfl

/-- Lines joined by the separator. -/
theorem pySplit_lines (c : Char) (ls : List PyS) (t : PyS) (h : ∀ l ∈ ls, c ∉ l) :
    pySplit c (ls.flatMap (· ++ [c]) ++ t) = ls ++ pySplit c t := by
  induction ls with
  | nil => rfl
  | cons l ls ih =>
    rw [List.flatMap_cons, List.append_assoc, List.append_assoc, List.cons_append, List.nil_append,
      pySplit_append c l _ (h l List.mem_cons_self), ih fun x hx => h x (List.mem_cons_of_mem _ hx), List.cons_append]

theorem pySplit_dots (m o : PyS) (ho : '.' ∉ o) :
    splitModObj (m ++ '.' :: o) = (m, o) := by
  have key : ∀ m : PyS, pySplit '.' (m ++ '.' :: o) = pySplit '.' m ++ [o] := by
    intro m
    induction m with
    | nil => simp [pySplit, pySplit_none '.' o ho]
    | cons a m ih =>
      by_cases ha : (a == '.') = true
      · rw [List.cons_append]
        conv_lhs => unfold pySplit
        conv_rhs => unfold pySplit
        rw [ha, ih]; simp
      · rw [List.cons_append]
        conv_lhs => unfold pySplit
        conv_rhs => unfold pySplit
        rw [ih]
        simp only [Bool.not_eq_true] at ha
        simp only [ha]
        rcases hm : pySplit '.' m with _ | ⟨f, fs⟩
        · exact absurd hm (pySplit_ne_nil _ _)
        · simp
  have hjoin : ∀ m : PyS, (List.intersperse ['.'] (pySplit '.' m)).flatten = m := by
    intro m
    induction m with
    | nil => rfl
    | cons a m ih =>
      unfold pySplit
      by_cases ha : a = '.'
      · subst ha
        rcases hm : pySplit '.' m with _ | ⟨f, fs⟩
        · exact absurd hm (pySplit_ne_nil _ _)
        · rw [hm] at ih
          simp [List.intersperse, ih]
      · rw [if_neg (by simpa using ha)]
        rcases hm : pySplit '.' m with _ | ⟨f, fs⟩
        · exact absurd hm (pySplit_ne_nil _ _)
        · rw [hm] at ih
          cases fs with
          | nil => simp [List.intersperse] at ih ⊢; exact ih
          | cons g gs => simp [List.intersperse] at ih ⊢; exact ih
  unfold splitModObj
  simp only [key, List.dropLast_concat, hjoin, List.getLast?_concat, Option.getD_some]

/-! ## Dictionaries -/

variable {α : Type}

def PyDict.keys (d : PyDict α) : List PyS := List.map (·.1) d

theorem find_none_iff (d : PyDict α) (k : PyS) : d.find k = none ↔ k ∉ d.keys := by
  unfold PyDict.find PyDict.keys
  rw [Option.map_eq_none_iff, List.find?_eq_none]
  simp only [List.mem_map, not_exists, not_and, beq_iff_eq]

theorem find_cons (e : PyS × α) (d : PyDict α) (k : PyS) :
    PyDict.find (e :: d) k = if e.1 = k then some e.2 else PyDict.find d k := by
  unfold PyDict.find
  by_cases h : e.1 = k <;> simp [List.find?_cons, h]

theorem find_append (d d' : PyDict α) (k : PyS) :
    PyDict.find (d ++ d') k = (PyDict.find d k).or (PyDict.find d' k) := by
  induction d with
  | nil => simp [PyDict.find]
  | cons e d ih =>
    rw [List.cons_append, find_cons, find_cons, ih]
    split_ifs <;> simp

theorem find_set (d : PyDict α) (k k' : PyS) (v : α) :
    (d.set k v).find k' = if k = k' then some v else d.find k' := by
  induction d with
  | nil => rw [PyDict.set, find_cons]
  | cons e d ih =>
    unfold PyDict.set
    by_cases h : e.1 = k
    · rw [if_pos (by simpa using h), find_cons, find_cons, h]
      split_ifs <;> rfl
    · rw [if_neg (by simpa using h), find_cons, find_cons, ih]
      by_cases h1 : e.1 = k'
      · rw [if_pos h1, if_pos h1, if_neg (by rw [← h1]; exact Ne.symm h)]
      · rw [if_neg h1, if_neg h1]

theorem keys_set (d : PyDict α) (k : PyS) (v : α) :
    (d.set k v).keys = if k ∈ d.keys then d.keys else d.keys ++ [k] := by
  induction d with
  | nil => simp [PyDict.set, PyDict.keys]
  | cons e d ih =>
    unfold PyDict.set
    by_cases h : e.1 = k
    · rw [if_pos (by simpa using h), if_pos (by simp [PyDict.keys, h])]
      simp [PyDict.keys, h]
    · rw [if_neg (by simpa using h)]
      have e1 : PyDict.keys (e :: PyDict.set d k v) = e.1 :: (PyDict.set d k v).keys := rfl
      have e2 : PyDict.keys (e :: d) = e.1 :: PyDict.keys d := rfl
      rw [e1, e2, ih]
      by_cases hk : k ∈ PyDict.keys d
      · rw [if_pos hk, if_pos (List.mem_cons_of_mem _ hk)]
      · rw [if_neg hk, if_neg (by rw [List.mem_cons, not_or]; exact ⟨Ne.symm h, hk⟩)]; rfl

theorem set_new (d : PyDict α) (k : PyS) (v : α) (h : k ∉ d.keys) : d.set k v = d ++ [(k, v)] := by
  induction d with
  | nil => rfl
  | cons e d ih =>
    have h' : e.1 ≠ k ∧ k ∉ PyDict.keys d := by
      constructor
      · rintro rfl; exact h (by simp [PyDict.keys])
      · intro hk; exact h (List.mem_cons_of_mem _ hk)
    unfold PyDict.set
    rw [if_neg (by simpa using h'.1), ih h'.2]
    rfl

theorem set_last (d : PyDict α) (k : PyS) (v w : α) (h : k ∉ d.keys) :
    PyDict.set (d ++ [(k, v)]) k w = d ++ [(k, w)] := by
  induction d with
  | nil => simp [PyDict.set]
  | cons e d ih =>
    have h' : e.1 ≠ k ∧ k ∉ PyDict.keys d := by
      constructor
      · rintro rfl; exact h (by simp [PyDict.keys])
      · intro hk; exact h (List.mem_cons_of_mem _ hk)
    rw [List.cons_append]
    unfold PyDict.set
    rw [if_neg (by simpa using h'.1), ih h'.2]
    rfl

theorem find_last (d : PyDict α) (k : PyS) (v : α) (h : k ∉ d.keys) : PyDict.find (d ++ [(k, v)]) k = some v := by
  rw [find_append, (find_none_iff d k).2 h, find_cons]
  simp

theorem nodup_set (d : PyDict α) (k : PyS) (v : α) (h : d.keys.Nodup) : (d.set k v).keys.Nodup := by
  rw [keys_set]
  split_ifs with hk
  · exact h
  · rw [List.nodup_append]
    exact ⟨h, by simp, by rintro a ha b hb rfl; rw [List.mem_singleton] at hb; exact hk (hb ▸ ha)⟩

theorem find_of_mem (d : PyDict α) (h : d.keys.Nodup) (e : PyS × α) (he : e ∈ d) : d.find e.1 = some e.2 := by
  induction d with
  | nil => cases he
  | cons a d ih =>
    rw [find_cons]
    have hn : a.1 ∉ PyDict.keys d ∧ (PyDict.keys d).Nodup := List.nodup_cons.1 h
    rcases List.mem_cons.1 he with rfl | he
    · rw [if_pos rfl]
    · rw [if_neg, ih hn.2 he]
      intro e1
      exact hn.1 (by rw [e1]; exact List.mem_map_of_mem (f := (·.1)) he)

theorem mem_of_find (d : PyDict α) (k : PyS) (v : α) (h : d.find k = some v) : (k, v) ∈ d := by
  induction d with
  | nil => simp [PyDict.find] at h
  | cons a d ih =>
    rw [find_cons] at h
    split_ifs at h with h1
    · cases h; subst h1; exact List.mem_cons_self
    · exact List.mem_cons_of_mem _ (ih h)

end Ssq
