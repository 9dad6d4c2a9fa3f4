import Verif.Model.Viz
import Verif.Lemmas.PyM
import Mathlib.Tactic.NormNum
import Mathlib.Tactic.IntervalCases
import Mathlib.Tactic.Push
import Mathlib.Tactic.Tauto

/-!
# C207: which visuals `Wavelet.viz` draws (ssqueezepy/wavelets.py:343-367)
-/
namespace Ssq

namespace Spec

/-- The visuals and the keywords they document. -/
def visualKeywords : String → Option (List String)
  | "heatmap" => some ["wavelet", "N", "scales"]
  | "waveforms" => some ["wavelet", "N", "scale", "zoom"]
  | "filterbank" => some ["wavelet", "N", "scales", "skips", "title_append", "positives", "show", "get"]
  | "harea" => some ["wavelet", "N", "scales", "get", "kw_w", "kw_t"]
  | "std_t" => some ["wavelet", "N", "scales", "get", "min_decay", "max_mult", "min_mult", "nondim", "force_int"]
  | "std_w" => some ["wavelet", "N", "scales", "get", "nondim", "force_int"]
  | "time-frequency" => some ["wavelet", "N", "scale", "notext", "width", "height"]
  | "anim:time-frequency" => some ["wavelet", "N", "scales", "width", "height", "savepath", "testing"]
  | _ => none

/-- The keywords passed on: the user's, with the wavelet itself and its length where the user gives none. -/
def PassedOn {V : Type} (self N : V) (kw kw' : Kw V) : Prop :=
  kw'.get? "wavelet" = some ((kw.get? "wavelet").getD self) ∧ kw'.get? "N" = some ((kw.get? "N").getD N) ∧
    ∀ k, k ≠ "wavelet" → k ≠ "N" → kw'.get? k = kw.get? k

end Spec

variable {V : Type}

theorem kw_set_get (kw : Kw V) (k : String) (v : V) (j : String) : (kw.set k v).get? j = if j = k then some v else kw.get? j := by
  unfold Kw.set
  split
  · rename_i h
    induction kw with
    | nil => simp at h
    | cons p kw ih =>
      unfold Kw.get? at ih ⊢
      by_cases hp : p.1 = k
      · by_cases hj : j = k
        · subst hj
          simp [hp]
        · have hb : (k == j) = false := by simpa using fun e => hj e.symm
          simp only [List.map_cons, List.find?_cons, hp, beq_self_eq_true, if_true, hb]
          rw [if_neg hj]
          clear ih h
          induction kw with
          | nil => rfl
          | cons q kw ih =>
            by_cases hq : q.1 = k
            · simp only [List.map_cons, List.find?_cons, hq, beq_self_eq_true, if_true, hb]
              exact ih
            · have : (q.1 == k) = false := by simpa using hq
              simp only [List.map_cons, List.find?_cons, this, Bool.false_eq_true, if_false]
              split <;> [rfl; exact ih]
      · have hpk : (p.1 == k) = false := by simpa using hp
        simp only [List.any_cons, hpk, Bool.false_or] at h
        have := ih h
        simp only [List.map_cons, List.find?_cons, hpk, Bool.false_eq_true, if_false]
        by_cases hj : p.1 = j
        · have hjk : j ≠ k := fun e => hp (hj.trans e)
          simp [hj, hjk]
        · have : (p.1 == j) = false := by simpa using hj
          simp only [this]
          exact ih h
  · rename_i h
    unfold Kw.get?
    rw [List.find?_append]
    by_cases hj : j = k
    · subst hj
      have : kw.find? (fun p => p.1 == j) = none := by
        rw [List.find?_eq_none]
        intro p hp hpj
        exact h (List.any_eq_true.2 ⟨p, hp, hpj⟩)
      simp [this]
    · have hb : (k == j) = false := by simpa using fun e => hj e.symm
      simp [hb, hj]

theorem kw_set_any (kw : Kw V) (k : String) (v : V) (f : String → Bool) : (kw.set k v).any (fun p => f p.1) = (f k || kw.any fun p => f p.1) := by
  unfold Kw.set
  split
  · rename_i h
    rw [Bool.eq_iff_iff]
    simp only [Bool.or_eq_true, List.any_eq_true, List.mem_map] at h ⊢
    obtain ⟨p0, hp0, hpk⟩ := h
    have hpk : p0.1 = k := by simpa using hpk
    constructor
    · rintro ⟨_, ⟨p, hp, rfl⟩, hf⟩
      by_cases e : p.1 = k
      · simp only [e, beq_self_eq_true, if_true] at hf
        exact Or.inl hf
      · rw [if_neg (by simpa using e)] at hf
        exact Or.inr ⟨p, hp, hf⟩
    · rintro (hf | ⟨p, hp, hf⟩)
      · exact ⟨_, ⟨p0, hp0, rfl⟩, by simpa [hpk] using hf⟩
      · by_cases e : p.1 = k
        · exact ⟨_, ⟨p, hp, rfl⟩, by simpa [e] using e ▸ hf⟩
        · exact ⟨_, ⟨p, hp, rfl⟩, by rw [if_neg (by simpa using e)]; exact hf⟩
  · rw [List.any_append]
    simp [Bool.or_comm]

/-- What a visual accepts. -/
def accepts (name : String) (kw : Kw V) : Prop :=
  ∃ ks, Spec.visualKeywords name = some ks ∧ (∀ p ∈ kw, p.1 ∈ ks) ∧ (name = "waveforms" → ∃ p ∈ kw, p.1 = "scale")

theorem passedOn_set (self N : V) (kw : Kw V) :
    Spec.PassedOn self N kw ((kw.set "wavelet" ((kw.get? "wavelet").getD self)).set "N" (((kw.set "wavelet" ((kw.get? "wavelet").getD self)).get? "N").getD N)) := by
  refine ⟨?_, ?_, ?_⟩
  · rw [kw_set_get, if_neg (by decide), kw_set_get, if_pos rfl]
  · rw [kw_set_get, if_pos rfl, kw_set_get, if_neg (by decide)]
  · intro k h1 h2
    rw [kw_set_get, if_neg h2, kw_set_get, if_neg h1]

theorem bind_spec (g : VSig) (kw kw' : Kw V) (hany : ∀ f : String → Bool, kw'.any (fun p => f p.1) = (f "N" || (f "wavelet" || kw.any fun p => f p.1)))
    (hN : "N" ∈ g.req ++ g.opt) (hw : "wavelet" ∈ g.req ++ g.opt) :
    (((∀ r ∈ g.req, r = "wavelet" ∨ r = "N" ∨ ∃ p ∈ kw, p.1 = r) ∧ ∀ p ∈ kw, p.1 ∈ g.req ++ g.opt ++ g.extra.getD []) ∧ g.bind kw' = .ok ()) ∨
      (¬ ((∀ r ∈ g.req, r = "wavelet" ∨ r = "N" ∨ ∃ p ∈ kw, p.1 = r) ∧ ∀ p ∈ kw, p.1 ∈ g.req ++ g.opt ++ g.extra.getD []) ∧
        (g.bind kw' = .error .typeError ∨ g.extra ≠ none ∧ g.bind kw' = .error .valueError)) := by
  have hmem : ∀ (ks : List String), "N" ∈ ks → "wavelet" ∈ ks → (kw'.any (fun p => !ks.contains p.1) = true ↔ ¬ ∀ p ∈ kw, p.1 ∈ ks) := by
    intro ks h1 h2
    rw [hany (fun k => !ks.contains k)]
    simp [h1, h2]
  have hreq : g.req.any (fun r => !kw'.any fun p => p.1 == r) = true ↔ ¬ ∀ r ∈ g.req, r = "wavelet" ∨ r = "N" ∨ ∃ p ∈ kw, p.1 = r := by
    have : ∀ r, (kw'.any fun p => p.1 == r) = true ↔ r = "wavelet" ∨ r = "N" ∨ ∃ p ∈ kw, p.1 = r := by
      intro r
      rw [hany (fun k => k == r)]
      simp only [Bool.or_eq_true, beq_iff_eq, List.any_eq_true, eq_comm (a := r)]
      tauto
    rw [List.any_eq_true, not_forall]
    refine exists_congr fun r => ?_
    rw [Bool.not_eq_true', ← Bool.not_eq_true, this, Classical.not_imp]
  have hm1 := hmem _ hN hw
  have hm2 := hmem (g.req ++ g.opt ++ g.extra.getD []) (List.mem_append_left _ hN) (List.mem_append_left _ hw)
  unfold VSig.bind
  by_cases c1 : g.extra = none ∧ kw'.any (fun p => !(g.req ++ g.opt).contains p.1) = true
  · right
    rw [if_pos c1]
    refine ⟨fun h => hm1.1 c1.2 ?_, Or.inl rfl⟩
    have := h.2
    rw [c1.1] at this
    simpa using this
  · rw [if_neg c1]
    by_cases c2 : g.req.any (fun r => !kw'.any fun p => p.1 == r) = true
    · right
      rw [if_pos c2]
      exact ⟨fun h => hreq.1 c2 h.1, Or.inl rfl⟩
    · rw [if_neg c2]
      by_cases c3 : kw'.any (fun p => !(g.req ++ g.opt ++ g.extra.getD []).contains p.1) = true
      · right
        rw [if_pos c3]
        refine ⟨fun h => hm2.1 c3 h.2, Or.inr ⟨fun he => c1 ⟨he, ?_⟩, rfl⟩⟩
        rw [he] at c3
        simpa using c3
      · left
        rw [if_neg c3]
        exact ⟨⟨not_not.1 fun h => c2 (hreq.2 h), not_not.1 fun h => c3 (hm2.2 h)⟩, rfl⟩

theorem vizOne_spec (self N : V) (name : String) (hn : name ∈ visuals.map (·.1)) (kw : Kw V) :
    (accepts name kw ∧ ∃ kw', vizOne self N name kw = .ok (name, kw') ∧ Spec.PassedOn self N kw kw') ∨
      (¬ accepts name kw ∧ (vizOne self N name kw = .error .typeError ∨ (name = "std_t" ∨ name = "std_w") ∧ vizOne self N name kw = .error .valueError)) := by
  have hp := passedOn_set self N kw
  unfold vizOne
  simp only []
  generalize hkw : (kw.set "wavelet" ((kw.get? "wavelet").getD self)).set "N" (((kw.set "wavelet" ((kw.get? "wavelet").getD self)).get? "N").getD N) = kw' at hp ⊢
  have hany : ∀ f : String → Bool, kw'.any (fun p => f p.1) = (f "N" || (f "wavelet" || kw.any fun p => f p.1)) := by
    intro f
    rw [← hkw, kw_set_any, kw_set_any]
  have key : ∀ g : VSig, visuals.find? (fun p => p.1 == name) = some (name, g) → "N" ∈ g.req ++ g.opt → "wavelet" ∈ g.req ++ g.opt →
      (((∀ r ∈ g.req, r = "wavelet" ∨ r = "N" ∨ ∃ p ∈ kw, p.1 = r) ∧ ∀ p ∈ kw, p.1 ∈ g.req ++ g.opt ++ g.extra.getD []) ↔ accepts name kw) →
      (g.extra ≠ none → name = "std_t" ∨ name = "std_w") →
      (accepts name kw ∧ ∃ kw'', (match visuals.find? (fun p => p.1 == name) with
        | none => Except.error PyErr.keyError
        | some p => (p.2.bind kw').bind fun _ => Except.ok (name, kw')) = .ok (name, kw'') ∧ Spec.PassedOn self N kw kw'') ∨
      (¬ accepts name kw ∧ ((match visuals.find? (fun p => p.1 == name) with
        | none => Except.error PyErr.keyError
        | some p => (p.2.bind kw').bind fun _ => Except.ok (name, kw')) = .error .typeError ∨ (name = "std_t" ∨ name = "std_w") ∧
          (match visuals.find? (fun p => p.1 == name) with
        | none => Except.error PyErr.keyError
        | some p => (p.2.bind kw').bind fun _ => Except.ok (name, kw')) = .error .valueError)) := by
    intro g hg h1 h2 h3 h4
    rw [hg]
    simp only []
    rcases bind_spec g kw kw' hany h1 h2 with ⟨ha, hb⟩ | ⟨ha, hb⟩
    · left
      exact ⟨h3.1 ha, kw', by rw [hb]; rfl, hp⟩
    · right
      refine ⟨fun h => ha (h3.2 h), ?_⟩
      rcases hb with hb | ⟨he, hb⟩
      · left; rw [hb]; rfl
      · right; exact ⟨h4 he, by rw [hb]; rfl⟩
  simp only [visuals, List.map_cons, List.map_nil, List.mem_cons, List.not_mem_nil, or_false] at hn
  rcases hn with rfl | rfl | rfl | rfl | rfl | rfl | rfl | rfl <;>
  · refine key _ rfl (by simp) (by simp) ?_ (by simp)
    simp [accepts, Spec.visualKeywords]
    try (constructor <;> intro h <;> (try intro a b hab) <;> (try have := h a b hab) <;> tauto)

/-- **C207, one visual.** For every wavelet, supported name and keywords: the visual is drawn, once, with the user's keywords and the wavelet itself and its length where the user gives
none, exactly if all keywords are documented for it and, for `'waveforms'`, a scale is given. Otherwise nothing is drawn and a `TypeError` (or, for `'std_t'` and
`'std_w'`, a `TypeError` or `ValueError`) is raised. -/
theorem C207_single_partial (self N : V) (name : String) (ks : List String) (hk : Spec.visualKeywords name = some ks) (kw : Kw V) :
    ((∀ p ∈ kw, p.1 ∈ ks) ∧ (name = "waveforms" → ∃ p ∈ kw, p.1 = "scale") → ∃ kw', viz self N name kw = ([(name, kw')], .ok ()) ∧ Spec.PassedOn self N kw kw') ∧
    (¬ ((∀ p ∈ kw, p.1 ∈ ks) ∧ (name = "waveforms" → ∃ p ∈ kw, p.1 = "scale")) → viz self N name kw = ([], .error .typeError) ∨
      (name = "std_t" ∨ name = "std_w") ∧ viz self N name kw = ([], .error .valueError)) := by
  have hn : name ∈ visuals.map (·.1) ∧ name ≠ "overview" := by
    unfold Spec.visualKeywords at hk
    split at hk <;> simp [visuals] at hk ⊢
  have hacc : accepts name kw ↔ (∀ p ∈ kw, p.1 ∈ ks) ∧ (name = "waveforms" → ∃ p ∈ kw, p.1 = "scale") := by
    unfold accepts
    rw [hk]
    simp
  rw [← hacc]
  have hc : (!(visuals.map (·.1)).contains name) = false := by simpa using hn.1
  unfold viz
  rw [if_neg hn.2, hc]
  rcases vizOne_spec self N name hn.1 kw with ⟨h1, kw', h2, h3⟩ | ⟨h1, h2⟩
  · exact ⟨fun _ => ⟨kw', by rw [h2]; rfl, h3⟩, fun h => absurd h1 h⟩
  · refine ⟨fun h => absurd h h1, fun _ => ?_⟩
    rcases h2 with h2 | ⟨h3, h2⟩
    · left; rw [h2]; rfl
    · right; exact ⟨h3, by rw [h2]; rfl⟩

/-- **C207, other names.** Any other name but `'overview'` raises a `ValueError` before anything is drawn, whatever the keywords. -/
theorem C207_unknown (self N : V) (name : String) (h0 : name ≠ "overview") (h : Spec.visualKeywords name = none) (kw : Kw V) : viz self N name kw = ([], .error .valueError) := by
  have hn : name ∉ visuals.map (·.1) := by
    intro hn
    simp only [visuals, List.map_cons, List.map_nil, List.mem_cons, List.not_mem_nil, or_false] at hn
    rcases hn with rfl | rfl | rfl | rfl | rfl | rfl | rfl | rfl <;> simp [Spec.visualKeywords] at h
  unfold viz
  rw [if_neg h0, if_pos (by simpa using hn)]

theorem accepts_set (name : String) (hn : name ∈ visuals.map (·.1)) (kw : Kw V) (v : V) : accepts name (kw.set "N" v) ↔ accepts name kw := by
  have h1 : ∀ f : String → Bool, (∃ p ∈ kw.set "N" v, f p.1 = true) ↔ f "N" = true ∨ ∃ p ∈ kw, f p.1 = true := by
    intro f
    have := congrArg (· = true) (kw_set_any kw "N" v f)
    simpa using this
  unfold accepts
  refine exists_congr fun ks => and_congr_right fun hks => ?_
  have hN : "N" ∈ ks := by
    unfold Spec.visualKeywords at hks
    split at hks <;> simp at hks <;> subst hks <;> simp
  refine and_congr ?_ (imp_congr_right fun _ => ?_)
  · have := h1 (fun k => !ks.contains k)
    simp [hN] at this
    constructor
    · intro h p hp
      by_contra hc
      obtain ⟨a, ⟨b, hb⟩, hna⟩ := this.2 ⟨p.1, ⟨p.2, hp⟩, hc⟩
      exact hna (h _ hb)
    · intro h p hp
      by_contra hc
      obtain ⟨a, ⟨b, hb⟩, hna⟩ := this.1 ⟨p.1, ⟨p.2, hp⟩, hc⟩
      exact hna (h _ hb)
  · have := h1 (fun k => k == "scale")
    simpa using this

theorem passedOn_N (self N : V) (kw kw' : Kw V) (h : Spec.PassedOn self N (kw.set "N" ((kw.get? "N").getD N)) kw') : Spec.PassedOn self N kw kw' := by
  obtain ⟨h1, h2, h3⟩ := h
  refine ⟨?_, ?_, ?_⟩
  · rw [h1, kw_set_get, if_neg (by decide)]
  · rw [h2, kw_set_get, if_pos rfl]; rfl
  · intro k hk1 hk2
    rw [h3 k hk1 hk2, kw_set_get, if_neg hk2]

theorem vizAll_spec (self N : V) (names : List String) (hn : ∀ n ∈ names, n ∈ visuals.map (·.1) ∧ n ≠ "std_t" ∧ n ≠ "std_w") (kw : Kw V) :
    ((∀ n ∈ names, accepts n kw) → (vizAll self N names kw).2 = .ok () ∧ (vizAll self N names kw).1.map (·.1) = names) ∧
    (¬ (∀ n ∈ names, accepts n kw) → (vizAll self N names kw).2 = .error .typeError ∧
      ∃ n, ∃ h : n < names.length, (vizAll self N names kw).1.map (·.1) = names.take n ∧ (∀ m ∈ names.take n, accepts m kw) ∧ ¬ accepts names[n] kw) ∧
    ∀ d ∈ (vizAll self N names kw).1, Spec.PassedOn self N kw d.2 := by
  induction names generalizing kw with
  | nil => simp [vizAll]
  | cons name rest ih =>
    have hn0 := hn name (by simp)
    obtain ⟨i1, i2, i3⟩ := ih (fun n h => hn n (by simp [h])) (kw.set "N" ((kw.get? "N").getD N))
    have hacc : ∀ n ∈ name :: rest, accepts n (kw.set "N" ((kw.get? "N").getD N)) ↔ accepts n kw := fun n h => accepts_set n (hn n h).1 kw _
    rw [vizAll]
    simp only []
    rcases vizOne_spec self N name hn0.1 (kw.set "N" ((kw.get? "N").getD N)) with ⟨h1, kw', h2, h3⟩ | ⟨h1, h2⟩
    · rw [h2]
      simp only []
      have ha := (hacc name (by simp)).1 h1
      refine ⟨fun h => ?_, fun h => ?_, ?_⟩
      · obtain ⟨j1, j2⟩ := i1 fun n hnr => (hacc n (by simp [hnr])).2 (h n (by simp [hnr]))
        exact ⟨j1, by rw [List.map_cons, j2]⟩
      · obtain ⟨j1, n, j2, j3, j4, j5⟩ := i2 fun h' => h fun n hnr => by
          rcases List.mem_cons.1 hnr with rfl | hnr'
          · exact ha
          · exact (hacc n hnr).1 (h' n hnr')
        refine ⟨j1, n + 1, by simpa using j2, by rw [List.map_cons, j3]; rfl, ?_, ?_⟩
        · intro m hm
          rw [List.take_succ_cons, List.mem_cons] at hm
          rcases hm with rfl | hm
          · exact ha
          · exact (hacc m (by simp [List.mem_of_mem_take hm])).1 (j4 m hm)
        · rw [List.getElem_cons_succ]
          exact fun h => j5 ((hacc _ (by simp)).2 h)
      · intro d hd
        rcases List.mem_cons.1 hd with rfl | hd
        · exact passedOn_N _ _ _ _ h3
        · exact passedOn_N _ _ _ _ (i3 d hd)
    · have h2' : vizOne self N name (kw.set "N" ((kw.get? "N").getD N)) = .error .typeError := by
        rcases h2 with h2 | ⟨h3, -⟩
        · exact h2
        · rcases h3 with h3 | h3
          · exact absurd h3 hn0.2.1
          · exact absurd h3 hn0.2.2
      rw [h2']
      simp only []
      have ha : ¬ accepts name kw := fun h => h1 ((hacc name (by simp)).2 h)
      refine ⟨fun h => absurd (h name (by simp)) ha, fun _ => ⟨trivial, 0, by simp, by simp, by simp, by simpa using ha⟩, by simp⟩

/-- **C207, overview.** `viz()` and `viz('overview')` draw the heatmap, the areas, the filterbank and the time-frequency plot, in this order, each with the same wavelet and length, exactly if
no keywords but `wavelet` and `N` are given. Otherwise they raise a `TypeError`, at the first of the four that does not document one of the keywords; those before it are drawn. -/
theorem C207_overview (self N : V) (kw : Kw V) :
    ((∀ p ∈ kw, p.1 = "wavelet" ∨ p.1 = "N") → (viz self N "overview" kw).2 = .ok () ∧
      (viz self N "overview" kw).1.map (·.1) = ["heatmap", "harea", "filterbank", "time-frequency"]) ∧
    (¬ (∀ p ∈ kw, p.1 = "wavelet" ∨ p.1 = "N") → (viz self N "overview" kw).2 = .error .typeError ∧
      ∃ n, ∃ h : n < 4, (viz self N "overview" kw).1.map (·.1) = ["heatmap", "harea", "filterbank", "time-frequency"].take n ∧
        ∃ ks, Spec.visualKeywords (["heatmap", "harea", "filterbank", "time-frequency"][n]) = some ks ∧ ∃ p ∈ kw, p.1 ∉ ks) ∧
    ∀ d ∈ (viz self N "overview" kw).1, Spec.PassedOn self N kw d.2 := by
  have hv : viz self N "overview" kw = vizAll self N ["heatmap", "harea", "filterbank", "time-frequency"] kw := by unfold viz; rw [if_pos rfl]
  rw [hv]
  obtain ⟨h1, h2, h3⟩ := vizAll_spec self N ["heatmap", "harea", "filterbank", "time-frequency"] (by simp [visuals]) kw
  have hacc : (∀ n ∈ ["heatmap", "harea", "filterbank", "time-frequency"], accepts n kw) ↔ ∀ p ∈ kw, p.1 = "wavelet" ∨ p.1 = "N" := by
    simp only [List.mem_cons, List.not_mem_nil, or_false, forall_eq_or_imp, forall_eq, accepts, Spec.visualKeywords, Option.some.injEq, exists_eq_left']
    constructor
    · rintro ⟨a, -, -, b⟩ p hp
      have e1 := a.1 p hp
      have e2 := b.1 p hp
      rcases e1 with e | e | e
      · exact Or.inl e
      · exact Or.inr e
      · rw [e] at e2
        simp at e2
    · intro h
      refine ⟨⟨fun p hp => ?_, by simp⟩, ⟨fun p hp => ?_, by simp⟩, ⟨fun p hp => ?_, by simp⟩, ⟨fun p hp => ?_, by simp⟩⟩ <;>
      · rcases h p hp with e | e <;> simp [e]
  rw [hacc] at h1 h2
  refine ⟨h1, fun h => ?_, h3⟩
  obtain ⟨j1, n, j2, j3, j4, j5⟩ := h2 h
  refine ⟨j1, n, by simpa using j2, j3, ?_⟩
  have j2' : n < 4 := by simpa using j2
  have hw : ∀ n, ∀ hn : n < 4, ∃ ks, Spec.visualKeywords (["heatmap", "harea", "filterbank", "time-frequency"][n]) = some ks ∧ ["heatmap", "harea", "filterbank", "time-frequency"][n] ≠ "waveforms" := by
    intro n hn
    interval_cases n <;> simp [Spec.visualKeywords]
  obtain ⟨ks, hks, hne⟩ := hw n j2'
  refine ⟨ks, hks, ?_⟩
  by_contra hc
  push Not at hc
  exact j5 ⟨ks, hks, hc, fun e => absurd e hne⟩

/-- The full claim: every supported name is drawn without further keywords. -/
def C207_full : Prop := ∀ (self N : ℕ) (name : String), Spec.visualKeywords name ≠ none → (viz self N name []).2 = .ok ()

/-- **C207 is false** of `'waveforms'`, whose scale has no default. -/
theorem C207_refuted : ¬ C207_full := by
  intro h
  have := h 0 0 "waveforms" (by simp [Spec.visualKeywords])
  rcases (C207_single_partial (0 : ℕ) 0 "waveforms" _ rfl []).2 (by simp) with e | ⟨e, -⟩
  · rw [e] at this; simp at this
  · simp at e

/-- The names and keywords in the theorems are met: `viz('filterbank', skips=1)`, `viz('overview', N=64)` and `viz('overview', scales=...)`. -/
example : (∃ kw', viz 1 2 "filterbank" [("skips", 1)] = ([("filterbank", kw')], .ok ())) ∧ (viz 1 2 "overview" [("N", 64)]).1.length = 4 ∧
    (viz 1 2 "overview" [("scales", 5)]).1.map (·.1) = ["heatmap", "harea", "filterbank"] ∧ (viz 1 2 "overview" [("scales", 5)]).2 = .error .typeError ∧
    viz 1 2 "nonesuch" [] = ([], .error .valueError) := by
  refine ⟨⟨_, rfl⟩, rfl, rfl, rfl, rfl⟩

end Ssq
