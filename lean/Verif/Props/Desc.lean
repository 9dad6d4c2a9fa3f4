import Verif.Model.Desc

/-!
# C228: descriptions of wavelets
-/
namespace Ssq

namespace Spec

/-- Items separated by `", "`. -/
def commaJoin : List PyS → PyS
  | [] => []
  | [a] => a
  | a :: l => a ++ ", ".toList ++ commaJoin l

/-- The options a description shows: all but the norm (which is part of the name), `centered_scale`, the dtype, and an order of 0. -/
def shownOptions (config : PyDict CfgV) : PyDict CfgV :=
  config.filter fun e => decide (e.1 ≠ "norm".toList ∧ e.1 ≠ "centered_scale".toList ∧ e.1 ≠ "dtype".toList ∧ ¬(e.1 = "order".toList ∧ e.2.isZero = true))

/-- `key=value`. -/
def item (fmt : CfgV → PyS) (e : PyS × CfgV) : PyS := e.1 ++ "=".toList ++ fmt e.2

/-- Text without separators. -/
def plain (s : PyS) : Prop := ',' ∉ s ∧ ' ' ∉ s ∧ '=' ∉ s

/-- What the texts of a description are assumed to look like: keys, values and the scale without separators, keys not ending in `N`, values not empty, names without `=` and `|`. -/
structure DescOk (fmt : CfgV → PyS) (w : WvObj) (scale : Option PyS) : Prop where
  key : ∀ e ∈ w.config, plain e.1 ∧ 'N' ∉ e.1
  val : ∀ e ∈ w.config, plain (fmt e.2) ∧ fmt e.2 ≠ []
  sc : ∀ s ∈ scale, plain s ∧ s ≠ []
  name : '=' ∉ w.name ∧ '|' ∉ w.name
  shown : w.config = [] ∨ shownOptions w.config ≠ []

end Spec

theorem descHidden_iff (e : PyS × CfgV) : descHidden e = false ↔
    (e.1 ≠ "norm".toList ∧ e.1 ≠ "centered_scale".toList ∧ e.1 ≠ "dtype".toList ∧ ¬(e.1 = "order".toList ∧ e.2.isZero = true)) := by
  unfold descHidden
  simp only [List.contains_eq_mem, Bool.or_eq_false_iff, decide_eq_false_iff_not, List.mem_cons, List.not_mem_nil, or_false, not_or, Bool.and_eq_false_iff, beq_eq_false_iff_ne, ne_eq, not_and,
    Bool.not_eq_true]
  tauto

theorem configLoop_eq (fmt : CfgV → PyS) (d : PyDict CfgV) (cfg : PyS) :
    configLoop fmt cfg d = cfg ++ ((Spec.shownOptions d).map fun e => Spec.item fmt e ++ ", ".toList).flatten := by
  induction d generalizing cfg with
  | nil => simp [configLoop, Spec.shownOptions]
  | cons e d ih =>
    unfold configLoop
    by_cases h : descHidden e = true
    · have h' := mt (descHidden_iff e).2 (by simp [h])
      rw [if_pos h, ih]
      unfold Spec.shownOptions
      rw [List.filter_cons_of_neg (by simpa using h')]
    · rw [Bool.not_eq_true] at h
      have h' := (descHidden_iff e).1 h
      rw [if_neg (by simp [h]), ih]
      unfold Spec.shownOptions
      rw [List.filter_cons_of_pos (by exact decide_eq_true h')]
      simp [Spec.item]

theorem flatten_sep (l : List PyS) (h : l ≠ []) : (l.map fun a => a ++ ", ".toList).flatten = Spec.commaJoin l ++ ", ".toList := by
  induction l with
  | nil => exact absurd rfl h
  | cons a l ih =>
    cases l with
    | nil => simp [Spec.commaJoin]
    | cons b l => rw [List.map_cons, List.flatten_cons, ih (by simp)]; simp [Spec.commaJoin]

/-- Ends in a character other than a comma or a space. -/
def SolidEnd (s : PyS) : Prop := ∃ p c, s = p ++ [c] ∧ c ≠ ',' ∧ c ≠ ' '

theorem rstrip_solid {s : PyS} (h : SolidEnd s) (t : PyS) (ht : ∀ c ∈ t, c = ',' ∨ c = ' ') : pyRstripSet ", ".toList (s ++ t) = s := by
  obtain ⟨p, c, rfl, h1, h2⟩ := h
  unfold pyRstripSet
  have e : (p ++ [c] ++ t).reverse = t.reverse ++ c :: p.reverse := by simp
  have key : ∀ (u v : PyS), (∀ c ∈ u, c = ',' ∨ c = ' ') → (u ++ v).dropWhile (fun x => List.contains ", ".toList x) = v.dropWhile (fun x => List.contains ", ".toList x) := by
    intro u v hu
    induction u with
    | nil => rfl
    | cons a u ih =>
      have ha : List.contains ", ".toList a = true := by
        rcases hu a (by simp) with rfl | rfl <;> decide
      rw [List.cons_append, List.dropWhile_cons_of_pos ha]
      exact ih fun c hc => hu c (List.mem_cons_of_mem _ hc)
  rw [e, key _ _ (fun c hc => ht c (List.mem_reverse.1 hc))]
  have hc : ¬ (List.contains ", ".toList c = true) := by
    intro h
    have h' : c ∈ ", ".toList := by simpa [List.contains_eq_mem] using h
    have : c = ',' ∨ c = ' ' := by
      have h'' : c ∈ [',', ' '] := h'
      simpa using h''
    rcases this with h | h
    · exact h1 h
    · exact h2 h
  rw [List.dropWhile_cons_of_neg hc]
  simp

theorem solid_append {p s : PyS} (h : SolidEnd s) : SolidEnd (p ++ s) := by
  obtain ⟨q, c, rfl, h1, h2⟩ := h
  exact ⟨p ++ q, c, by simp, h1, h2⟩

theorem solid_plain {s : PyS} (h : Spec.plain s) (h0 : s ≠ []) : SolidEnd s := by
  refine ⟨s.dropLast, s.getLast h0, (List.dropLast_append_getLast h0).symm, ?_, ?_⟩
  · intro e; exact h.1 (e ▸ List.getLast_mem h0)
  · intro e; exact h.2.1 (e ▸ List.getLast_mem h0)

theorem solid_join (l : List PyS) (h : l ≠ []) (hl : ∀ a ∈ l, SolidEnd a) : SolidEnd (Spec.commaJoin l) := by
  induction l with
  | nil => exact absurd rfl h
  | cons a l ih =>
    cases l with
    | nil => exact hl a (by simp)
    | cons b l => exact solid_append (ih (by simp) fun c hc => hl c (List.mem_cons_of_mem _ hc))

theorem shown_sub {d : PyDict CfgV} {e : PyS × CfgV} (h : e ∈ Spec.shownOptions d) : e ∈ d := (List.mem_filter.1 h).1

theorem items_solid {fmt : CfgV → PyS} {w : WvObj} {sc : Option PyS} (h : Spec.DescOk fmt w sc) :
    ∀ a ∈ (Spec.shownOptions w.config).map (Spec.item fmt), SolidEnd a := by
  intro a ha
  obtain ⟨e, he, rfl⟩ := List.mem_map.1 ha
  exact solid_append (solid_plain (h.val e (shown_sub he)).1 (h.val e (shown_sub he)).2)

theorem configStr_eq {fmt : CfgV → PyS} {w : WvObj} {sc : Option PyS} (h : Spec.DescOk fmt w sc) (hs : Spec.shownOptions w.config ≠ []) :
    configStr fmt w.config = Spec.commaJoin ((Spec.shownOptions w.config).map (Spec.item fmt)) := by
  have hne : w.config ≠ [] := by
    intro e; rw [e] at hs; exact hs rfl
  unfold configStr
  rw [if_neg hne, configLoop_eq, List.nil_append]
  have := flatten_sep ((Spec.shownOptions w.config).map (Spec.item fmt)) (by simpa using hs)
  rw [List.map_map] at this
  have e : (fun e => Spec.item fmt e ++ ", ".toList) = (fun a => a ++ ", ".toList) ∘ Spec.item fmt := rfl
  rw [e, this]
  exact rstrip_solid (solid_join _ (by simpa using hs) (items_solid h)) _ (by decide)

theorem join_mem_eq (l : List PyS) (h : l ≠ []) (hl : ∀ a ∈ l, '=' ∈ a) : '=' ∈ Spec.commaJoin l := by
  cases l with
  | nil => exact absurd rfl h
  | cons a l =>
    have := hl a (by simp)
    cases l with
    | nil => exact this
    | cons b l => simp [Spec.commaJoin, this]

theorem join_append (l m : List PyS) (hm : m ≠ []) : Spec.commaJoin (l ++ m) = (l.map fun a => a ++ ", ".toList).flatten ++ Spec.commaJoin m := by
  induction l with
  | nil => rfl
  | cons a l ih =>
    have hne : l ++ m ≠ [] := by simp [hm]
    obtain ⟨b, k, hb⟩ := List.exists_cons_of_ne_nil hne
    rw [List.cons_append, hb]
    simp only [Spec.commaJoin]
    rw [← hb, ih]
    simp

/-- The items of a description before `N`. -/
def Spec.descItems (fmt : CfgV → PyS) (w : WvObj) (scale : Option PyS) : List PyS :=
  (Spec.shownOptions w.config).map (Spec.item fmt) ++ (scale.toList.map fun s => "scale=".toList ++ s)

/-- `N=…`. -/
def Spec.lenItem (n : ℕ) : PyS := "N=".toList ++ (Nat.repr n).toList

/-- The length shown: the one given if it is not zero, else the wavelet's. -/
def Spec.descLen (selfN : ℕ) (N : Option ℕ) : ℕ := if N.getD 0 = 0 then selfN else N.getD 0

theorem descN_eq (selfN : ℕ) (N : Option ℕ) : descN selfN N = Spec.descLen selfN N := by
  unfold Spec.descLen
  cases N with
  | none => rfl
  | some k => cases k <;> simp [descN]

/-- **C228, what is shown.** The description is the name, the shown options, the scale if given, and the length. -/
theorem C228_text (fmt : CfgV → PyS) (w : WvObj) (selfN : ℕ) (N : Option ℕ) (scale : Option PyS) (h : Spec.DescOk fmt w scale) :
    wavDesc fmt w selfN N scale true =
      w.name ++ " wavelet | ".toList ++ Spec.commaJoin (Spec.descItems fmt w scale ++ [Spec.lenItem (Spec.descLen selfN N)]) := by
  unfold wavDesc
  simp only [if_true, descN_eq]
  rw [join_append _ _ (by simp)]
  unfold Spec.descItems
  rw [List.map_append, List.flatten_append]
  have hp : (if configStr fmt w.config ≠ "Default configs".toList then pyRstripSet ", ".toList (configStr fmt w.config) ++ ", ".toList else []) =
      (((Spec.shownOptions w.config).map (Spec.item fmt)).map fun a => a ++ ", ".toList).flatten := by
    by_cases hs : Spec.shownOptions w.config = []
    · have hc : w.config = [] := h.shown.resolve_right fun k => k hs
      rw [hs]
      simp [configStr, hc]
    · rw [configStr_eq h hs, flatten_sep _ (by simpa using hs), if_pos, ← List.append_nil (Spec.commaJoin _),
        rstrip_solid (solid_join _ (by simpa using hs) (items_solid h)) [] (by simp), List.append_nil]
      intro e
      have h1 := join_mem_eq ((Spec.shownOptions w.config).map (Spec.item fmt)) (by simpa using hs) (by
        intro a ha
        obtain ⟨e, -, rfl⟩ := List.mem_map.1 ha
        simp [Spec.item])
      rw [e] at h1
      revert h1
      decide
  rw [hp]
  cases scale with
  | none => simp [Spec.commaJoin, Spec.lenItem]
  | some s => simp [Spec.commaJoin, Spec.lenItem]

/-- No `N` directly before `=`. -/
def NoNeq : PyS → Prop
  | [] => True
  | c :: s => ¬(c = 'N' ∧ s.head? = some '=') ∧ NoNeq s

theorem noNeq_of {s : PyS} (h : 'N' ∉ s ∨ '=' ∉ s) : NoNeq s := by
  induction s with
  | nil => trivial
  | cons c s ih =>
    refine ⟨?_, ih (h.imp (fun a b => a (List.mem_cons_of_mem _ b)) (fun a b => a (List.mem_cons_of_mem _ b)))⟩
    rintro ⟨rfl, h2⟩
    rcases h with h | h
    · simp at h
    · cases s with
      | nil => simp at h2
      | cons d s => simp at h2; subst h2; simp at h

theorem noNeq_append {s t : PyS} (hs : NoNeq s) (ht : NoNeq t) (hb : s.getLast? ≠ some 'N' ∨ t.head? ≠ some '=') : NoNeq (s ++ t) := by
  induction s with
  | nil => exact ht
  | cons c s ih =>
    cases s with
    | nil =>
      refine ⟨?_, ht⟩
      rintro ⟨rfl, h2⟩
      rcases hb with hb | hb
      · simp at hb
      · exact hb h2
    | cons d s =>
      refine ⟨hs.1, ih hs.2 ?_⟩
      rcases hb with hb | hb
      · left; simpa [List.getLast?_cons_cons] using hb
      · right; exact hb

theorem find_len (pre ds : PyS) (h : NoNeq pre) : pyFind ('N' :: '=' :: ds) (pre ++ 'N' :: '=' :: ds) = some pre.length := by
  induction pre with
  | nil => simp [pyFind]
  | cons c s ih =>
    rw [List.cons_append, pyFind, if_neg, ih h.2]
    · rfl
    · intro hp
      rw [List.isPrefixOf_iff_prefix] at hp
      obtain ⟨t, ht⟩ := hp
      simp only [List.cons_append, List.cons.injEq] at ht
      obtain ⟨rfl, ht⟩ := ht
      refine h.1 ⟨rfl, ?_⟩
      cases s with
      | nil => simp at ht
      | cons d s => simp at ht; simp [← ht.1]

theorem noNeq_items {fmt : CfgV → PyS} {w : WvObj} {sc : Option PyS} (h : Spec.DescOk fmt w sc) :
    NoNeq ((Spec.descItems fmt w sc).map fun a => a ++ ", ".toList).flatten := by
  have hitem : ∀ a ∈ Spec.descItems fmt w sc, NoNeq (a ++ ", ".toList) := by
    intro a ha
    rcases List.mem_append.1 ha with ha | ha
    · obtain ⟨e, he, rfl⟩ := List.mem_map.1 ha
      obtain ⟨hk, hkN⟩ := h.key e (shown_sub he)
      have hv := (h.val e (shown_sub he)).1
      refine noNeq_append (noNeq_append (noNeq_append (noNeq_of (Or.inl hkN)) (noNeq_of (Or.inl (by decide))) ?_) (noNeq_of (Or.inr hv.2.2)) (Or.inl ?_))
        (noNeq_of (Or.inl (by decide))) (Or.inr (by decide))
      · left
        intro hl
        exact hkN (List.mem_of_getLast? hl)
      · rw [List.getLast?_append]; simp
    · obtain ⟨s, hs, rfl⟩ := List.mem_map.1 ha
      have hv := (h.sc s (by simpa using hs)).1
      exact noNeq_append (noNeq_append (noNeq_of (Or.inl (by decide))) (noNeq_of (Or.inr hv.2.2)) (Or.inl (by decide))) (noNeq_of (Or.inl (by decide))) (Or.inr (by decide))
  generalize Spec.descItems fmt w sc = l at hitem
  induction l with
  | nil => trivial
  | cons a l ih =>
    rw [List.map_cons, List.flatten_cons]
    refine noNeq_append (hitem a (by simp)) (ih fun b hb => hitem b (List.mem_cons_of_mem _ hb)) (Or.inl ?_)
    rw [List.getLast?_append, show List.getLast? ", ".toList = some ' ' from rfl, Option.some_or]
    decide

/-- **C228, without the length.** With `show_N=False` the description ends before the length, whatever digits occur elsewhere in it; with nothing else to show a bar is left at the end. -/
theorem C228_no_len (fmt : CfgV → PyS) (w : WvObj) (selfN : ℕ) (N : Option ℕ) (scale : Option PyS) (h : Spec.DescOk fmt w scale) :
    wavDesc fmt w selfN N scale false =
      if Spec.descItems fmt w scale = [] then w.name ++ " wavelet |".toList else w.name ++ " wavelet | ".toList ++ Spec.commaJoin (Spec.descItems fmt w scale) := by
  have ht := C228_text fmt w selfN N scale h
  rw [join_append _ _ (by simp), ← List.append_assoc] at ht
  unfold wavDesc at ht ⊢
  simp only [if_true, Bool.false_eq_true, if_false] at ht ⊢
  rw [ht, descN_eq]
  set pre := w.name ++ " wavelet | ".toList ++ ((Spec.descItems fmt w scale).map fun a => a ++ ", ".toList).flatten with hpre
  have hpn : NoNeq pre := by
    refine noNeq_append (noNeq_of (Or.inr ?_)) (noNeq_items h) (Or.inl ?_)
    · intro hm
      rcases List.mem_append.1 hm with hm | hm
      · exact h.name.1 hm
      · revert hm; decide
    · rw [List.getLast?_append, show List.getLast? " wavelet | ".toList = some ' ' from rfl, Option.some_or]; decide
  have hf := find_len pre (Nat.repr (Spec.descLen selfN N)).toList hpn
  have e1 : "N=".toList ++ (Nat.repr (Spec.descLen selfN N)).toList = 'N' :: '=' :: (Nat.repr (Spec.descLen selfN N)).toList := rfl
  have e2 : Spec.commaJoin [Spec.lenItem (Spec.descLen selfN N)] = 'N' :: '=' :: (Nat.repr (Spec.descLen selfN N)).toList := rfl
  rw [e1, e2, hf]
  simp only [List.take_left']
  by_cases hs : Spec.descItems fmt w scale = []
  · rw [if_pos hs, hpre, hs]
    have : w.name ++ " wavelet | ".toList ++ (([] : List PyS).map fun a => a ++ ", ".toList).flatten = (w.name ++ " wavelet |".toList) ++ " ".toList := by simp
    rw [this]
    exact rstrip_solid (solid_append ⟨" wavelet ".toList, '|', by decide, by decide, by decide⟩) _ (by decide)
  · rw [if_neg hs, hpre, flatten_sep _ hs, ← List.append_assoc]
    refine rstrip_solid (solid_append (solid_join _ hs fun a ha => ?_)) _ (by decide)
    rcases List.mem_append.1 ha with ha | ha
    · exact items_solid h a ha
    · obtain ⟨s, hs, rfl⟩ := List.mem_map.1 ha
      obtain ⟨h1, h2⟩ := h.sc s (by simpa using hs)
      exact solid_append (solid_plain h1 h2)

theorem split_at {c : Char} {a a' r r' : PyS} (ha : c ∉ a) (ha' : c ∉ a') (h : a ++ c :: r = a' ++ c :: r') : a = a' ∧ r = r' := by
  induction a generalizing a' with
  | nil =>
    cases a' with
    | nil => simpa using h
    | cons d a' => simp at h; simp [h.1] at ha'
  | cons b a ih =>
    cases a' with
    | nil => simp at h; simp [h.1] at ha
    | cons d a' =>
      simp only [List.cons_append, List.cons.injEq] at h
      obtain ⟨h1, h2⟩ := ih (fun m => ha (List.mem_cons_of_mem _ m)) (fun m => ha' (List.mem_cons_of_mem _ m)) h.2
      exact ⟨by rw [h.1, h1], h2⟩

theorem join_inj (l l' : List PyS) (h0 : l ≠ []) (h0' : l' ≠ []) (hl : ∀ a ∈ l, ',' ∉ a) (hl' : ∀ a ∈ l', ',' ∉ a) (h : Spec.commaJoin l = Spec.commaJoin l') : l = l' := by
  induction l generalizing l' with
  | nil => exact absurd rfl h0
  | cons a l ih =>
    cases l' with
    | nil => exact absurd rfl h0'
    | cons a' l' =>
      have ha := hl a (by simp)
      have ha' := hl' a' (by simp)
      cases l with
      | nil =>
        cases l' with
        | nil => simpa [Spec.commaJoin] using h
        | cons b' l' =>
          simp only [Spec.commaJoin] at h
          refine absurd ?_ ha
          rw [h]
          simp
      | cons b l =>
        cases l' with
        | nil =>
          simp only [Spec.commaJoin] at h
          refine absurd ?_ ha'
          rw [← h]
          simp
        | cons b' l' =>
          simp only [Spec.commaJoin, List.append_assoc] at h
          obtain ⟨h1, h2⟩ := split_at (r := ' ' :: Spec.commaJoin (b :: l)) (r' := ' ' :: Spec.commaJoin (b' :: l')) ha ha' (by simpa using h)
          rw [List.cons.injEq] at h2
          rw [h1, ih (b' :: l') (by simp) (by simp) (fun c hc => hl c (List.mem_cons_of_mem _ hc)) (fun c hc => hl' c (List.mem_cons_of_mem _ hc)) h2.2]

theorem digits_plain (n : ℕ) : ',' ∉ (Nat.repr n).toList := by
  intro h
  have := Nat.isDigit_of_mem_toDigits (b := 10) (by norm_num) (by norm_num) (n := n) (c := ',') (by simpa [Nat.repr] using h)
  revert this
  decide

theorem lenItem_inj {n m : ℕ} (h : Spec.lenItem n = Spec.lenItem m) : n = m := by
  have h1 := List.append_cancel_left h
  rw [Nat.toList_repr, Nat.toList_repr] at h1
  rw [← Nat.ofDigitChars_ten_toDigits (n := n), h1, Nat.ofDigitChars_ten_toDigits]

/-- **C228, equal descriptions.** Wavelets with equal descriptions have the same name, the same shown options (if different values look different) and the same length. -/
theorem C228_same_partial (fmt : CfgV → PyS) (w w' : WvObj) (selfN selfN' : ℕ) (N N' : Option ℕ) (h : Spec.DescOk fmt w none) (h' : Spec.DescOk fmt w' none)
    (hinj : ∀ e ∈ w.config, ∀ e' ∈ w'.config, fmt e.2 = fmt e'.2 → e.2 = e'.2) (heq : wavDesc fmt w selfN N none true = wavDesc fmt w' selfN' N' none true) :
    w.name = w'.name ∧ Spec.shownOptions w.config = Spec.shownOptions w'.config ∧ Spec.descLen selfN N = Spec.descLen selfN' N' := by
  rw [C228_text fmt w selfN N none h, C228_text fmt w' selfN' N' none h'] at heq
  have hsplit : ∀ (n r : PyS), n ++ " wavelet | ".toList ++ r = (n ++ " wavelet ".toList) ++ '|' :: ' ' :: r := by intro n r; simp
  rw [hsplit, hsplit] at heq
  have hb : ∀ n : PyS, '|' ∉ n → '|' ∉ n ++ " wavelet ".toList := by
    intro n hn hm
    rcases List.mem_append.1 hm with hm | hm
    · exact hn hm
    · revert hm; decide
  obtain ⟨e1, e2⟩ := split_at (hb _ h.name.2) (hb _ h'.name.2) heq
  rw [List.cons.injEq] at e2
  have hcomma : ∀ (v : WvObj) (n : ℕ), Spec.DescOk fmt v none → ∀ a ∈ Spec.descItems fmt v none ++ [Spec.lenItem n], ',' ∉ a := by
    intro v n hv a ha hm
    rcases List.mem_append.1 ha with ha | ha
    · rcases List.mem_append.1 ha with ha | ha
      · obtain ⟨e, he, rfl⟩ := List.mem_map.1 ha
        rcases List.mem_append.1 hm with hm | hm
        · rcases List.mem_append.1 hm with hm | hm
          · exact (hv.key e (shown_sub he)).1.1 hm
          · revert hm; decide
        · exact (hv.val e (shown_sub he)).1.1 hm
      · simp at ha
    · rw [List.mem_singleton.1 ha] at hm
      rcases List.mem_append.1 hm with hm | hm
      · revert hm; decide
      · exact digits_plain n hm
  have e3 := join_inj _ _ (by simp) (by simp) (hcomma w _ h) (hcomma w' _ h') e2.2
  obtain ⟨e4, e5⟩ := List.append_inj' e3 rfl
  refine ⟨List.append_cancel_right e1, ?_, lenItem_inj (by simpa using e5)⟩
  have e6 : (Spec.shownOptions w.config).map (Spec.item fmt) = (Spec.shownOptions w'.config).map (Spec.item fmt) := by simpa [Spec.descItems] using e4
  have key : ∀ l l' : PyDict CfgV, (∀ e ∈ l, e ∈ w.config) → (∀ e ∈ l', e ∈ w'.config) → l.map (Spec.item fmt) = l'.map (Spec.item fmt) → l = l' := by
    intro l
    induction l with
    | nil => intro l' _ _ hm; cases l' <;> simp_all
    | cons e l ih =>
      intro l' hl hl' hm
      cases l' with
      | nil => simp at hm
      | cons e' l' =>
        simp only [List.map_cons, List.cons.injEq] at hm
        have he := hl e (by simp)
        have he' := hl' e' (by simp)
        obtain ⟨k1, k2⟩ := split_at (c := '=') (r := fmt e.2) (r' := fmt e'.2) (h.key e he).1.2.2 (h'.key e' he').1.2.2 (by simpa [Spec.item] using hm.1)
        rw [ih l' (fun x hx => hl x (List.mem_cons_of_mem _ hx)) (fun x hx => hl' x (List.mem_cons_of_mem _ hx)) hm.2, Prod.ext k1 (hinj e he e' he' k2)]
  exact key _ _ (fun e he => shown_sub he) (fun e he => shown_sub he) e6

/-- C228 in full: wavelets that are described alike, with the same length, are the same. -/
def C228_full : Prop := ∀ (g : GDict) (check : PyS → PyDict CfgV → Py Unit) (arg arg' : WavArg) (w w' : WvObj) (fmt : CfgV → PyS) (N : ℕ),
  waveletInit g check arg .none = .ok w → waveletInit g check arg' .none = .ok w' →
  (∀ e ∈ w.config, ∀ e' ∈ w'.config, fmt e.2 = fmt e'.2 → e.2 = e'.2) → wavDesc fmt w N none none true = wavDesc fmt w' N none none true → w = w'

/-- Options of a GMW. -/
def exGmwOpts (b : Bool) : PyDict CfgV :=
  [("gamma".toList, .num 3), ("beta".toList, .num 60), ("norm".toList, .str "bandpass".toList), ("order".toList, .num 0), ("centered_scale".toList, .bool b)]

/-- The wavelet they make. -/
def exGmw (b : Bool) : WvObj := { qual := "gmw_l1.<locals>.<lambda>".toList, config := exGmwOpts b, dtype := "float64".toList }

/-- The texts of its values. -/
def exFmt : CfgV → PyS
  | .none => "None".toList
  | .bool true => "True".toList
  | .bool false => "False".toList
  | .num x => if x = 3 then "3".toList else if x = 60 then "60".toList else "0".toList
  | .str s => s

theorem exGmw_init (b : Bool) : waveletInit [] (fun _ _ => .ok ()) (.tuple [.str "GMW".toList, .dict (exGmwOpts b)]) .none = .ok (exGmw b) := by
  cases b <;> rfl

/-- False of the code: `centered_scale` is not shown, and changes the wavelet. -/
theorem C228_refuted : ¬ C228_full := fun h => by
  have := h [] (fun _ _ => .ok ()) _ _ (exGmw true) (exGmw false) exFmt 1024 (exGmw_init true) (exGmw_init false) (by decide) (by decide)
  exact absurd (congrArg (fun w => w.config) this) (by decide)

theorem exGmw_ok (b : Bool) : Spec.DescOk exFmt (exGmw b) none := by
  refine ⟨?_, ?_, by simp, ?_, Or.inr ?_⟩
  · cases b <;> unfold Spec.plain <;> decide
  · cases b <;> unfold Spec.plain <;> decide
  · cases b <;> decide
  · cases b <;> decide

/-- The hypotheses are met: the description of a GMW of length 1024, with and without the length. -/
example : wavDesc exFmt (exGmw true) 1024 none none true = "GMW L1 wavelet | gamma=3, beta=60, N=1024".toList ∧
    wavDesc exFmt (exGmw true) 1024 none none false = "GMW L1 wavelet | gamma=3, beta=60".toList := by
  rw [C228_text _ _ _ _ _ (exGmw_ok true), C228_no_len _ _ _ _ _ (exGmw_ok true)]
  decide

/-- The hypotheses of `C228_same_partial` are met. -/
example : Spec.shownOptions (exGmw true).config = Spec.shownOptions (exGmw false).config :=
  (C228_same_partial exFmt (exGmw true) (exGmw false) 1024 512 none (some 1024) (exGmw_ok true) (exGmw_ok false) (by decide) (by decide)).2.1

end Ssq
