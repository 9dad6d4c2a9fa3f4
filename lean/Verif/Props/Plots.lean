import Verif.Model.Plots
import Verif.Lemmas.Xifn
import Verif.Props.SsqFreqs
import Mathlib.Tactic.Linarith
import Mathlib.Tactic.FieldSimp
import Mathlib.Tactic.Ring
import Mathlib.Tactic.Positivity
import Mathlib.Tactic.IntervalCases
import Mathlib.Data.List.GetD
import Mathlib.Analysis.Real.Pi.Bounds

/-!
# C134: `plots`; C135: tick labels; C136: x-limits; C137: `imshow`
-/
namespace Ssq

/-! ## C134 -/

/-- Everything is drawn: entry `i` of `X` against entry `i` of `Y`, in axes `i`. -/
def Spec.AllDrawn {α κ : Type} (X : List (Option α)) (Y : List (Option α)) (calls : List (ℕ × Option α × Option α × κ)) : Prop :=
  calls.length = X.length ∧ ∀ i < X.length, ∃ c, calls[i]? = some c ∧ c.1 = i ∧ X[i]? = some c.2.1 ∧ c.2.2.1 = Y[i]?.getD none

/-- The claim: with no keywords per curve, and no more rows or columns fixed than there are curves, `plots` draws everything. -/
def C134_full : Prop :=
  ∀ (X : List (Option ℕ)) (Y : Option (List (Option ℕ))) (nrows ncols : Option ℕ), X ≠ [] → (∀ l, Y = some l → l.length = X.length) →
    (∀ r, nrows = some r → 1 ≤ r) → (∀ c, ncols = some c → 1 ≤ c) → (∀ r c, nrows = some r → ncols = some c → X.length ≤ r * c) →
    ∃ calls, plots X Y nrows ncols () [] = .ok calls ∧ Spec.AllDrawn X (Y.getD []) calls

/-- C134: what is drawn. As many curves as there are axes, entries of `X`, entries of `Y` (one, if it is not given) and keywords; the rest is
dropped without notice. Curve `i` is drawn in axes `i` with the entries `i`. -/
theorem C134_drawn {α κ : Type} (X : List (Option α)) (Y : List (Option α)) (nrows ncols : Option ℕ) (empty : κ) (pkw : List κ)
    (hk : pkw ≠ []) (g : ℕ × ℕ) (hg : plotsGrid X.length nrows ncols = .ok g) (h0 : g.1 ≠ 0 ∧ g.2 ≠ 0) (h1 : g ≠ (1, 1)) :
    ∃ calls, plots X (some Y) nrows ncols empty pkw = .ok calls ∧
      calls.length = min (g.1 * g.2) (min X.length (min Y.length pkw.length)) ∧
      ∀ i (h : i < calls.length), ∃ x y k, X[i]? = some x ∧ Y[i]? = some y ∧ pkw[i]? = some k ∧ calls[i] = (i, x, y, k) := by
  have hk' : pkw.isEmpty = false := by simpa using hk
  refine ⟨_, by
    simp only [plots, hg, Except.bind, Option.getD_some, hk']
    rw [if_neg (by tauto), if_neg (by rintro ⟨a, b⟩; exact h1 (Prod.ext a b))], by simp [List.length_zip], ?_⟩
  intro i h
  simp only [Bool.false_eq_true, if_false, List.length_zip, List.length_range] at h
  refine ⟨X[i]'(by omega), Y[i]'(by omega), pkw[i]'(by omega), List.getElem?_eq_getElem _, List.getElem?_eq_getElem _,
    List.getElem?_eq_getElem _, ?_⟩
  simp

/-- C134: the part that holds: `Y` is given, there are at least two axes, and at least as many as curves. -/
theorem C134_partial (X Y : List (Option ℕ)) (nrows ncols : Option ℕ) (hY : Y.length = X.length) (hX : X ≠ [])
    (g : ℕ × ℕ) (hg : plotsGrid X.length nrows ncols = .ok g) (h1 : g ≠ (1, 1)) (hcap : X.length ≤ g.1 * g.2) :
    ∃ calls, plots X (some Y) nrows ncols () [] = .ok calls ∧ Spec.AllDrawn X Y calls := by
  have hpos : 0 < X.length := List.length_pos_iff.2 hX
  have h0 : g.1 ≠ 0 ∧ g.2 ≠ 0 := by
    constructor <;> intro e <;> rw [e] at hcap <;> simp at hcap <;> exact hX hcap
  obtain ⟨calls, h, hl, hc⟩ := C134_drawn X Y nrows ncols () (List.replicate X.length ()) (by
    rw [← List.length_pos_iff, List.length_replicate]; exact hpos) g hg h0 h1
  refine ⟨calls, ?_, ?_, ?_⟩
  · rw [← h]
    have hr : (List.replicate X.length ()).isEmpty = false := by
      rw [List.isEmpty_eq_false_iff, ← List.length_pos_iff, List.length_replicate]; exact hpos
    simp only [plots, hr]
    rfl
  · rw [hl, List.length_replicate]; omega
  · intro i hi
    have hi' : i < calls.length := by rw [hl, List.length_replicate]; omega
    obtain ⟨x, y, k, ex, ey, ek, e⟩ := hc i hi'
    exact ⟨calls[i], List.getElem?_eq_getElem _, by rw [e], by rw [e, ex], by rw [e, ey]; rfl⟩

/-- C134: the grid chosen for `c` columns has room for all curves exactly when their number is a multiple of `c`, or at most `c`. -/
theorem C134_room (n c : ℕ) (hn : 1 ≤ n) (hc : 1 ≤ c) (g : ℕ × ℕ) (hg : plotsGrid n none (some c) = .ok g) :
    n ≤ g.1 * g.2 ↔ c ∣ n ∨ n ≤ c := by
  simp only [plotsGrid, if_neg (show ¬ c = 0 by omega), Except.ok.injEq] at hg
  subst hg
  simp only
  constructor
  · intro h
    by_cases hle : n ≤ c
    · exact Or.inr hle
    · left
      have hq : 1 ≤ n / c := Nat.div_pos (by omega) (by omega)
      rw [max_eq_left hq] at h
      exact Nat.dvd_of_mod_eq_zero (by have := Nat.div_add_mod n c; have e := Nat.mul_comm c (n / c); omega)
  · rintro (h | h)
    · have : n / c * c = n := Nat.div_mul_cancel h
      calc n = n / c * c := this.symm
        _ ≤ max (n / c) 1 * c := Nat.mul_le_mul_right _ (le_max_left _ _)
    · calc n ≤ 1 * c := by omega
        _ ≤ max (n / c) 1 * c := Nat.mul_le_mul_right _ (le_max_right _ _)

/-- C134 is false of the code: one curve cannot be plotted at all. -/
theorem C134_one_refuted : plots [some 5] (some [some 6]) none none () [] = .error .attributeError := rfl

/-- Of three curves in two columns, two are drawn. -/
theorem C134_columns_refuted : plots [some 5, some 6, some 7] (some [some 1, some 2, some 3]) none (some 2) () [] =
    .ok [(0, some 5, some 1, ()), (1, some 6, some 2, ())] := rfl

/-- Without `Y`, only the first is drawn. -/
theorem C134_no_y_refuted : plots [some 5, some 6] none none none () [] = .ok [(0, some 5, none, ())] := rfl

/-- C134 is false of the code. -/
theorem C134_refuted : ¬ C134_full := by
  intro h
  obtain ⟨calls, h1, -⟩ := h [some 5] (some [some 6]) none none (by simp) (by simp) (by simp) (by simp) (by simp)
  rw [C134_one_refuted] at h1
  simp at h1

/-- The hypotheses of `C134_partial` are met by two curves. -/
example : ∃ calls, plots [some 5, some 6] (some [some 1, none]) none none () [] = .ok calls ∧ Spec.AllDrawn [some 5, some 6] [some 1, none] calls :=
  C134_partial _ _ _ _ rfl (by simp) (2, 1) rfl (by decide) (by decide)

/-! ## C135 -/

/-- C135: eight ticks, the first at the first value and the last at the last; positions never decrease, and each is labelled by the value at its position. From eight values on
no two ticks share a position. -/
theorem C135_ticks {α : Type} (values : List α) (h : values ≠ []) :
    ∃ t, ticks values = .ok t ∧ t.length = 8 ∧ (∀ p ∈ t, values[p.1]? = some p.2) ∧
      (t.map Prod.fst).Pairwise (· ≤ ·) ∧ (8 ≤ values.length → (t.map Prod.fst).Pairwise (· < ·)) ∧
      (t.map Prod.fst).head? = some 0 ∧ (t.map Prod.fst).getLast? = some (values.length - 1) := by
  have hpos : 0 < values.length := List.length_pos_iff.2 h
  have hlt : ∀ k < 8, k * (values.length - 1) / 7 < values.length := by
    intro k hk
    have : k * (values.length - 1) / 7 ≤ values.length - 1 := by
      rw [Nat.div_le_iff_le_mul_add_pred (by norm_num)]
      have : k * (values.length - 1) ≤ 7 * (values.length - 1) := Nat.mul_le_mul_right _ (by omega)
      omega
    omega
  have hfm : ∀ l : List ℕ, (∀ i ∈ l, i < values.length) →
      ((l.filterMap fun i => values[i]?.map fun v => (i, v)).map Prod.fst) = l := by
    intro l hl
    induction l with
    | nil => rfl
    | cons a as ih =>
      have ha := hl a (by simp)
      rw [List.filterMap_cons, List.getElem?_eq_getElem ha]
      simp only [Option.map_some, List.map_cons]
      rw [ih fun i hi => hl i (by simp [hi])]
  have hidx : ∀ i ∈ tickIdxs values.length, i < values.length := by
    intro i hi
    obtain ⟨k, hk, rfl⟩ := List.mem_map.1 hi
    exact hlt k (by simpa using hk)
  refine ⟨_, by rw [ticks, if_neg h], ?_, ?_, ?_, ?_, ?_, ?_⟩
  · rw [← List.length_map (f := Prod.fst), hfm _ hidx]
    simp [tickIdxs]
  · intro p hp
    obtain ⟨i, _, hi⟩ := List.mem_filterMap.1 hp
    cases e : values[i]? with
    | none => rw [e] at hi; simp at hi
    | some v =>
      rw [e] at hi
      simp only [Option.map_some, Option.some.injEq] at hi
      rw [← hi]
      exact e
  · rw [hfm _ hidx, tickIdxs, List.pairwise_map]
    exact List.Pairwise.imp (fun hab => Nat.div_le_div_right (Nat.mul_le_mul_right _ hab.le)) List.pairwise_lt_range
  · intro h8
    rw [hfm _ hidx, tickIdxs, List.pairwise_map]
    refine List.Pairwise.imp ?_ List.pairwise_lt_range
    intro a b hab
    have h1 : (a + 1) * (values.length - 1) ≤ b * (values.length - 1) := Nat.mul_le_mul_right _ hab
    have h2 : (a + 1) * (values.length - 1) = a * (values.length - 1) + (values.length - 1) := by ring
    omega
  · rw [hfm _ hidx]
    simp [tickIdxs, List.range_succ_eq_map]
  · rw [hfm _ hidx]
    simp only [tickIdxs, show List.range 8 = [0, 1, 2, 3, 4, 5, 6, 7] from rfl, List.map_cons, List.map_nil, List.getLast?_cons_cons,
      List.getLast?_singleton]
    congr 1
    omega

/-- C135: without values it fails. -/
theorem C135_fails {α : Type} (values : List α) : ticks values = .error .indexError ↔ values = [] := by
  unfold ticks
  split <;> simp_all

example : ticks ([5, 6, 7, 8, 9, 10, 11, 12, 13, 14] : List ℕ) =
    .ok [(0, 5), (1, 6), (2, 7), (3, 8), (5, 10), (6, 11), (7, 12), (9, 14)] := rfl

/-! ## C136 -/

/-- A history of `plot` calls on fresh axes: for each the least and the greatest x, and `xlims`. -/
noncomputable def plotHistory (cs : List ((ℝ × ℝ) × Option (ℝ × ℝ))) : XAxis := cs.foldl (fun a c => plotX a c.1.1 c.1.2 c.2) ⟨none, none⟩

/-- All of a curve is shown. -/
def Spec.Shown (lims : ℝ × ℝ) (c : ℝ × ℝ) : Prop := lims.1 ≤ c.1 ∧ c.2 ≤ lims.2

/-- The claim: curves plotted one after the other into the same axes, without asking for limits, are all shown. -/
def C136_full : Prop := ∀ cs : List (ℝ × ℝ), (∀ c ∈ cs, c.1 < c.2) → ∀ c ∈ cs, Spec.Shown (plotHistory (cs.map fun c => (c, none))).lims c

/-- C136: the limits that are asked for are the limits there are, whatever was plotted before. -/
theorem C136_given (cs : List ((ℝ × ℝ) × Option (ℝ × ℝ))) (c l : ℝ × ℝ) : (plotHistory (cs ++ [(c, some l)])).lims = l := by
  simp [plotHistory, List.foldl_append, plotX, scaleX, XAxis.lims]

theorem plotX_set (x : XAxis) (l h lo hi : ℝ) (hx : x.set = some (l, h)) :
    (plotX x lo hi none).set = some (l + 0.018 * (h - l), h - 0.018 * (h - l)) := by
  simp [plotX, scaleX, XAxis.draw, XAxis.lims, hx]

theorem foldl_same (a b : ℝ) (k : ℕ) :
    (plotHistory (List.replicate (k + 1) ((a, b), none))).set = some ((a + b) / 2 - 1.1 * (b - a) / 2 * 0.964 ^ (k + 1), (a + b) / 2 + 1.1 * (b - a) / 2 * 0.964 ^ (k + 1)) := by
  induction k with
  | zero =>
    simp only [plotHistory, List.replicate, List.foldl_cons, List.foldl_nil, plotX, scaleX, if_true, XAxis.draw, XAxis.lims, Option.some.injEq, Prod.mk.injEq]
    constructor <;> ring
  | succ k ih =>
    rw [List.replicate_succ', plotHistory, List.foldl_append]
    rw [plotHistory] at ih
    simp only [List.foldl_cons, List.foldl_nil]
    rw [plotX_set _ _ _ _ _ ih]
    simp only [Option.some.injEq, Prod.mk.injEq]
    constructor <;> rw [pow_succ _ (k + 1)] <;> ring

/-- C136: the width shown after `k` curves over one and the same range: each call takes away 3.6% of it. -/
theorem C136_width (a b : ℝ) (k : ℕ) : (plotHistory (List.replicate (k + 1) ((a, b), none))).lims =
    ((a + b) / 2 - 1.1 * (b - a) / 2 * 0.964 ^ (k + 1), (a + b) / 2 + 1.1 * (b - a) / 2 * 0.964 ^ (k + 1)) := by
  rw [XAxis.lims, foldl_same]

/-- C136: so such curves are shown entirely exactly if there are at most two of them. -/
theorem C136_partial (a b : ℝ) (hab : a < b) (k : ℕ) :
    Spec.Shown (plotHistory (List.replicate (k + 1) ((a, b), none))).lims (a, b) ↔ k + 1 ≤ 2 := by
  rw [C136_width, Spec.Shown]
  simp only
  have hd : 0 < b - a := by linarith
  constructor
  · rintro ⟨h1, -⟩
    by_contra hk
    have hp : (0.964 : ℝ) ^ (k + 1) ≤ 0.964 ^ 3 := pow_le_pow_of_le_one (by norm_num) (by norm_num) (by omega)
    have : 1.1 * (b - a) / 2 * 0.964 ^ (k + 1) ≤ 1.1 * (b - a) / 2 * 0.964 ^ 3 := mul_le_mul_of_nonneg_left hp (by linarith)
    norm_num at this h1
    linarith
  · intro hk
    have hp : (0.964 : ℝ) ^ 2 ≤ 0.964 ^ (k + 1) := pow_le_pow_of_le_one (by norm_num) (by norm_num) hk
    have : 1.1 * (b - a) / 2 * 0.964 ^ 2 ≤ 1.1 * (b - a) / 2 * 0.964 ^ (k + 1) := mul_le_mul_of_nonneg_left hp (by linarith)
    norm_num at this ⊢
    constructor <;> linarith

/-- C136: one curve always is. -/
theorem C136_one (a b : ℝ) (hab : a < b) : Spec.Shown (plotHistory [((a, b), none)]).lims (a, b) :=
  (C136_partial a b hab 0).2 (by norm_num)

/-- C136 is false of the code: the third curve over the same range hides the ends of all three. -/
theorem C136_refuted : ¬ C136_full := by
  intro h
  have := h (List.replicate 3 (0, 1)) (by intro c hc; rw [List.eq_of_mem_replicate hc]; norm_num) (0, 1) (by simp)
  rw [List.map_replicate] at this
  exact absurd ((C136_partial 0 1 (by norm_num) 2).1 this) (by norm_num)

/-- A second curve that reaches further is cut off, too. -/
theorem C136_wider_refuted : ¬ Spec.Shown (plotHistory [((0, 1), none), ((0, 2), none)]).lims (0, 2) := by
  simp only [plotHistory, List.foldl_cons, List.foldl_nil, plotX, scaleX, if_true, XAxis.draw, XAxis.lims, Spec.Shown]
  norm_num

/-- A history of `plot(..., auto_xlims=False)` calls on fresh axes. -/
noncomputable def plotHistoryFixed (cs : List (ℝ × ℝ)) : XAxis := cs.foldl (fun a c => plotX a c.1 c.2 none false) ⟨none, none⟩

theorem fixed_data (cs : List (ℝ × ℝ)) : (plotHistoryFixed cs).set = none ∧
    match (plotHistoryFixed cs).data with
    | none => cs = []
    | some l => cs ≠ [] ∧ (∀ c ∈ cs, l.1 ≤ c.1 ∧ c.2 ≤ l.2) ∧ (∃ c ∈ cs, c.1 = l.1) ∧ ∃ c ∈ cs, c.2 = l.2 := by
  induction cs using List.reverseRecOn with
  | nil => simp [plotHistoryFixed]
  | append_singleton cs c ih =>
    have he : plotHistoryFixed (cs ++ [c]) = plotX (plotHistoryFixed cs) c.1 c.2 none false := by
      simp [plotHistoryFixed, List.foldl_append]
    rw [he]
    generalize plotHistoryFixed cs = a at ih
    obtain ⟨d, st⟩ := a
    obtain ⟨rfl, ih⟩ := ih
    simp only [plotX, scaleX, Bool.false_eq_true, if_false, XAxis.draw]
    refine ⟨trivial, ?_⟩
    cases d with
    | none =>
      simp only at ih
      subst ih
      simp
    | some l =>
      obtain ⟨-, h1, ⟨p, hp, hp'⟩, q, hq, hq'⟩ := ih
      refine ⟨by simp, ?_, ?_, ?_⟩
      · intro e he
        rw [List.mem_append, List.mem_singleton] at he
        rcases he with he | rfl
        · exact ⟨(min_le_left _ _).trans (h1 e he).1, (h1 e he).2.trans (le_max_left _ _)⟩
        · exact ⟨min_le_right _ _, le_max_right _ _⟩
      · rcases le_total l.1 c.1 with h | h
        · exact ⟨p, by simp [hp], by simp [h, hp']⟩
        · exact ⟨c, by simp, by simp [h]⟩
      · rcases le_total l.2 c.2 with h | h
        · exact ⟨c, by simp, by simp [h]⟩
        · exact ⟨q, by simp [hq], by simp [h, hq']⟩

/-- C136: with `auto_xlims=False` every curve of any history is shown entirely, and the limits are the least x and the greatest x of all curves, with 5% of the range around. -/
theorem C136_fixed (cs : List (ℝ × ℝ)) (hc : ∀ c ∈ cs, c.1 ≤ c.2) (hne : cs ≠ []) :
    (∀ c ∈ cs, Spec.Shown (plotHistoryFixed cs).lims c) ∧
    ∃ lo hi, (∃ c ∈ cs, c.1 = lo) ∧ (∃ c ∈ cs, c.2 = hi) ∧ (∀ c ∈ cs, lo ≤ c.1 ∧ c.2 ≤ hi) ∧
      (plotHistoryFixed cs).lims = (lo - (hi - lo) / 20, hi + (hi - lo) / 20) := by
  obtain ⟨h1, h2⟩ := fixed_data cs
  cases hd : (plotHistoryFixed cs).data with
  | none => rw [hd] at h2; exact absurd h2 hne
  | some l =>
    rw [hd] at h2
    obtain ⟨-, hb, hlo, hhi⟩ := h2
    have hl : (plotHistoryFixed cs).lims = (l.1 - (l.2 - l.1) / 20, l.2 + (l.2 - l.1) / 20) := by
      rw [XAxis.lims, h1, hd]
      simp only [Prod.mk.injEq]
      constructor <;> ring
    refine ⟨fun c hm => ?_, l.1, l.2, hlo, hhi, hb, hl⟩
    rw [hl]
    have := hb c hm
    have := hc c hm
    constructor <;> simp only <;> linarith

example : (plotHistoryFixed [(0, 1), (-1, 0), (0, 3)]).lims = (-1 - 4 / 20, 3 + 4 / 20) := by
  simp [plotHistoryFixed, plotX, scaleX, XAxis.draw, XAxis.lims]
  norm_num

/-! ## C140 -/

/-- The claim: with `ax_equal` both axes get the same limits, symmetric about 0, whatever other options are given for x. -/
def C140_full : Prop := ∀ (xl yl : ℝ × ℝ) (xlims : Option (ℝ × ℝ)) (auto : Bool), ∃ m, scalePlot xl yl xlims none auto true = .ok ((-m, m), (-m, m))

/-- C140: without `xlims`, and with `auto_xlims`, they are the least symmetric limits which contain all that was shown in x and in y. -/
theorem C140_partial (xl yl : ℝ × ℝ) : ∃ m, scalePlot xl yl none none true true = .ok ((-m, m), (-m, m)) ∧
    (∀ v ∈ [xl.1, xl.2, yl.1, yl.2], -m ≤ v ∧ v ≤ m) ∧
    ∀ m', (∀ v ∈ [xl.1, xl.2, yl.1, yl.2], -m' ≤ v ∧ v ≤ m') → m ≤ m' := by
  refine ⟨max (max |yl.1| |yl.2|) (max |xl.1| |xl.2|), by simp [scalePlot], ?_, ?_⟩
  · intro v hv
    rw [← abs_le]
    simp only [List.mem_cons, List.not_mem_nil, or_false] at hv
    rcases hv with rfl | rfl | rfl | rfl <;> simp
  · intro m' h
    simp only [← abs_le] at h
    simp at h
    simp [h]

/-- C140: with `xlims`, or without `auto_xlims`, it fails. -/
theorem C140_fails (xl yl : ℝ × ℝ) (xlims : Option (ℝ × ℝ)) (ylims : Option (Option ℝ × Option ℝ)) (auto : Bool) :
    scalePlot xl yl xlims ylims auto true = .error .unboundLocalError ↔ xlims ≠ none ∨ auto = false := by
  cases xlims <;> cases auto <;> simp [scalePlot]

/-- C140: otherwise the limits asked for are the limits there are, a side left open stays as it was. -/
theorem C140_given (xl yl : ℝ × ℝ) (l : ℝ × ℝ) (a b : Option ℝ) (auto : Bool) :
    scalePlot xl yl (some l) (some (a, b)) auto false = .ok (l, (a.getD yl.1, b.getD yl.2)) ∧
    scalePlot xl yl (some l) none auto false = .ok (l, yl) ∧
    scalePlot xl yl none none false false = .ok (xl, yl) := by
  simp [scalePlot, scaleX]

theorem C140_refuted : ¬ C140_full := by
  intro h
  obtain ⟨m, hm⟩ := h (0, 1) (0, 1) (some (0, 1)) true
  rw [(C140_fails (0, 1) (0, 1) (some (0, 1)) none true).2 (by simp)] at hm
  cases hm

example : scalePlot (0, 3) (-5, 1) none none true true = .ok ((-5, 5), (-5, 5)) := by
  simp [scalePlot]; norm_num

/-! ## C137 -/

/-- The claim: any image can be shown with any options. -/
def C137_full : Prop := ∀ (data : List (List ℂ)) (a : ImArgs), data.flatten ≠ [] → ∃ r, imshow data a = .ok r

theorem max?_spec (l : List ℝ) (h : l ≠ []) : ∃ m, l.max? = some m ∧ m ∈ l ∧ ∀ x ∈ l, x ≤ m := by
  cases e : l.max? with
  | none => rw [List.max?_eq_none_iff] at e; exact absurd e h
  | some m =>
    rw [List.max?_eq_some_iff] at e
    exact ⟨m, rfl, e.1, e.2⟩

/-- C137: what is drawn, and which combinations fail: `complex` goes with neither `abs`, `ridge`, a title, labels, ticks, nor hidden ticks or borders. -/
theorem C137_partial (data : List (List ℂ)) (a : ImArgs) (hd : data.flatten ≠ []) :
    ((∃ r, imshow data a = .ok r) ↔ (a.complex = true → a.abs = false ∧ a.ridge = false ∧ a.ticks = true ∧ a.hasTicks = false ∧
      a.borders = true ∧ a.hasLabel = false ∧ a.hasTitle = false)) ∧
    ∀ r, imshow data a = .ok r → r.2 =
      if a.abs then [data.map fun r => r.map fun z => ‖z‖]
      else if a.complex then [data.map fun r => r.map Complex.re, data.map fun r => r.map Complex.im]
      else [data.map fun r => r.map Complex.re] := by
  have hn : ∃ l, imNorm data a = .ok l := by
    unfold imNorm
    split
    · exact ⟨_, rfl⟩
    · obtain ⟨m, hm, -⟩ := max?_spec (data.flatten.map fun z => ‖z‖) (by simpa using hd)
      exact ⟨((if a.abs = true then 0 else -m) * a.normScaling, m * a.normScaling), by simp only [maxAbs, hm, Except.bind]⟩
  obtain ⟨l, hl⟩ := hn
  unfold imshow
  rw [hl]
  simp only [Except.bind, imStyle]
  cases a.abs <;> cases a.complex <;> cases a.ridge <;> cases a.ticks <;> cases a.hasTicks <;> cases a.borders <;> cases a.hasLabel <;>
    cases a.hasTitle <;> simp

/-- C137: the colour limits. Without `norm` and `norm_scaling`, they are symmetric about zero (from zero to the greatest modulus for `abs`), no value drawn lies outside, and
the upper one is the modulus of an entry. -/
theorem C137_limits (data : List (List ℂ)) (a : ImArgs) (ha : a.norm = none) (hs : a.normScaling = 1) (lims : ℝ × ℝ) (panels : List (List (List ℝ)))
    (h : imshow data a = .ok (lims, panels)) :
    lims.1 = (if a.abs then 0 else -lims.2) ∧ (∃ z ∈ data.flatten, lims.2 = ‖z‖) ∧
      ∀ p ∈ panels, ∀ r ∈ p, ∀ v ∈ r, lims.1 ≤ v ∧ v ≤ lims.2 := by
  have hd : data.flatten ≠ [] := by
    intro e
    simp [imshow, imNorm, ha, maxAbs, e, Except.bind] at h
  have hp := (C137_partial data a hd).2 _ h
  obtain ⟨m, hm, hmem, hle⟩ := max?_spec (data.flatten.map fun z => ‖z‖) (by simpa using hd)
  have hl : lims = ((if a.abs then 0 else -m), m) := by
    unfold imshow at h
    simp only [imNorm, ha, maxAbs, hm, hs, Except.bind, mul_one] at h
    split at h
    · simp at h
    · split at h
      · simp at h
      · simp only [Except.ok.injEq, Prod.mk.injEq] at h
        exact h.1.symm
  have hz : ∀ r ∈ data, ∀ z ∈ r, ‖z‖ ≤ m := by
    intro r hr z hz
    exact hle _ (List.mem_map_of_mem (List.mem_flatten.2 ⟨r, hr, hz⟩))
  have hm0 : 0 ≤ m := by
    obtain ⟨z, -, rfl⟩ := List.mem_map.1 hmem
    exact norm_nonneg z
  refine ⟨by rw [hl], ?_, ?_⟩
  · obtain ⟨z, hz, e⟩ := List.mem_map.1 hmem
    exact ⟨z, hz, by rw [hl]; exact e.symm⟩
  · have re_ok : ∀ r ∈ data, ∀ z ∈ r, -m ≤ z.re ∧ z.re ≤ m := fun r hr z hzz => abs_le.1 ((Complex.abs_re_le_norm z).trans (hz r hr z hzz))
    have im_ok : ∀ r ∈ data, ∀ z ∈ r, -m ≤ z.im ∧ z.im ≤ m := fun r hr z hzz => abs_le.1 ((Complex.abs_im_le_norm z).trans (hz r hr z hzz))
    have out : ∀ (f : ℂ → ℝ) (P : ℝ → Prop), (∀ r ∈ data, ∀ z ∈ r, P (f z)) → ∀ r ∈ data.map (fun r => r.map f), ∀ v ∈ r, P v := by
      intro f P hP r hr v hv
      obtain ⟨r', hr', rfl⟩ := List.mem_map.1 hr
      obtain ⟨z, hzz, rfl⟩ := List.mem_map.1 hv
      exact hP r' hr' z hzz
    simp only at hp
    rw [hp, hl]
    cases a.abs
    · cases a.complex
      · simp only [Bool.false_eq_true, if_false, List.mem_singleton, forall_eq]
        exact out _ (fun v => -m ≤ v ∧ v ≤ m) re_ok
      · simp only [Bool.false_eq_true, if_false, if_true, List.mem_cons, List.not_mem_nil, or_false, forall_eq_or_imp, forall_eq]
        exact ⟨out _ (fun v => -m ≤ v ∧ v ≤ m) re_ok, out _ (fun v => -m ≤ v ∧ v ≤ m) im_ok⟩
    · simp only [if_true, List.mem_singleton, forall_eq]
      exact out _ (fun v => 0 ≤ v ∧ v ≤ m) fun r hr z hzz => ⟨norm_nonneg z, hz r hr z hzz⟩

/-- C137: limits that are given are used, times `norm_scaling`. -/
theorem C137_given (data : List (List ℂ)) (a : ImArgs) (l : ℝ × ℝ) (ha : a.norm = some l) (r : (ℝ × ℝ) × List (List (List ℝ))) (h : imshow data a = .ok r) :
    r.1 = (l.1 * a.normScaling, l.2 * a.normScaling) := by
  unfold imshow at h
  simp only [imNorm, ha, Except.bind] at h
  split at h
  · simp at h
  · split at h
    · simp at h
    · simp only [Except.ok.injEq] at h
      rw [← h]

/-- C137 is false of the code: a complex image cannot have a title. -/
theorem C137_refuted : ¬ C137_full := by
  intro h
  obtain ⟨r, hr⟩ := h [[1]] { complex := true, hasTitle := true } (by simp)
  have := ((C137_partial [[1]] { complex := true, hasTitle := true } (by simp)).1.1 ⟨r, hr⟩ rfl).2.2.2.2.2.2
  simp at this

/-- An image that can be shown, with the limits of `C137_limits`. -/
example : ∃ r, imshow [[1, 2], [3, 4]] { abs := true, hasTitle := true } = .ok r :=
  ((C137_partial [[1, 2], [3, 4]] { abs := true, hasTitle := true } (by simp)).1).2 (by simp)

end Ssq
