import Verif.Spec.Padding
import Verif.Lemmas.P2up
import Verif.Lemmas.Slice

/-! Helper lemmas on padding. -/
namespace Ssq
open Spec
variable {α : Type}

theorem npPadIdx_ok (idx : (N : ℕ) → 0 < N → ℤ → Fin N) (x : List α) (n1 n2 : ℤ)
    (h : 0 < x.length) (h1 : 0 ≤ n1) (h2 : 0 ≤ n2) :
    npPadIdx idx x n1 n2 = .ok ((List.range (n1.toNat + x.length + n2.toNat)).map
      fun p : ℕ => x[idx x.length h ((p : ℤ) - n1)]) := by
  unfold npPadIdx
  rw [if_neg (by omega), dif_pos h]

theorem periodic_emod {E : ℤ → α} {c : ℤ} (hE : ∀ i, E (i + c) = E i) (i : ℤ) :
    E (i % c) = E i := by
  have key : ∀ (k : ℕ) (i : ℤ), E (i + k * c) = E i := by
    intro k
    induction k with
    | zero => intro i; simp
    | succ k ih =>
      intro i
      have : i + ((k + 1 : ℕ) : ℤ) * c = (i + k * c) + c := by push_cast; ring
      rw [this, hE, ih]
  have key2 : ∀ (k : ℤ) (i : ℤ), E (i + k * c) = E i := by
    intro k i
    rcases Int.eq_nat_or_neg k with ⟨m, rfl | rfl⟩
    · exact key m i
    · have := key m (i + -(m : ℤ) * c)
      rw [← this]; congr 1; ring
  have h := key2 (i / c) (i % c)
  rw [← h]; congr 1
  have := Int.emod_add_mul_ediv i c
  rw [mul_comm]; omega

section
variable [Zero α] {x : List α} {E : ℤ → α}

theorem ext_wrap (h : 0 < x.length) (hE : IsExtension .wrap x E) (i : ℤ) :
    x[wrapIdx x.length h i] = E i := by
  obtain ⟨h1, h2⟩ := hE
  rw [← periodic_emod h2 i]
  have h3 := Int.emod_nonneg i (b := (x.length : ℤ)) (by omega)
  have h4 := Int.emod_lt_of_pos i (b := (x.length : ℤ)) (by omega)
  have h5 := h1 (i % x.length).toNat (by omega)
  rw [Int.toNat_of_nonneg h3] at h5
  rw [h5]; rfl

theorem ext_edge (h : 0 < x.length) (hE : IsExtension .replicate x E) (i : ℤ) :
    x[edgeIdx x.length h i] = E i := by
  obtain ⟨h1, h2, h3⟩ := hE
  by_cases hi : i < 0
  · rw [h2 i (by omega)]
    have := h1 0 h
    simp only [Nat.cast_zero] at this
    rw [this]
    simp [edgeIdx, hi]
  · by_cases hN : (x.length : ℤ) - 1 ≤ i
    · rw [h3 i hN]
      have := h1 (x.length - 1) (by omega)
      have e : ((x.length - 1 : ℕ) : ℤ) = (x.length : ℤ) - 1 := by omega
      rw [e] at this
      rw [this]
      have e2 : min i.toNat (x.length - 1) = x.length - 1 := by omega
      simp [edgeIdx, hi, e2]
    · have := h1 i.toNat (by omega)
      rw [Int.toNat_of_nonneg (by omega)] at this
      rw [this]
      have e2 : min i.toNat (x.length - 1) = i.toNat := by omega
      simp [edgeIdx, hi, e2]

theorem ext_reflect (h : 0 < x.length) (hE : IsExtension .reflect x E) (i : ℤ) :
    x[reflectIdx x.length h i] = E i := by
  obtain ⟨h1, hev, hmir, hone⟩ := hE
  by_cases hN : x.length = 1
  · have := h1 0 h
    simp only [Nat.cast_zero] at this
    rw [hone hN i, this]
    simp [reflectIdx, hN]
  · have hper : ∀ j, E (j + (2 * x.length - 2 : ℤ)) = E j := by
      intro j
      have := hmir (j + (x.length - 1))
      rw [← hev j]
      convert this using 2 <;> ring
    rw [← periodic_emod hper i]
    have h3 := Int.emod_nonneg i (b := (2 * x.length - 2 : ℤ)) (by omega)
    have h4 := Int.emod_lt_of_pos i (b := (2 * x.length - 2 : ℤ)) (by omega)
    generalize hm : i % (2 * x.length - 2 : ℤ) = m at h3 h4
    by_cases hlt : m.toNat < x.length
    · have h5 := h1 m.toNat hlt
      rw [Int.toNat_of_nonneg h3] at h5
      rw [h5]
      simp [reflectIdx, hN, hm, hlt]
    · have h5 := h1 (2 * x.length - 2 - m.toNat) (by omega)
      have e : ((2 * x.length - 2 - m.toNat : ℕ) : ℤ) = -(m - (2 * x.length - 2)) := by omega
      rw [e, hev] at h5
      have h6 := hper (m - (2 * x.length - 2))
      rw [h5] at h6
      rw [show m - (2 * (x.length : ℤ) - 2) + (2 * x.length - 2) = m by ring] at h6
      rw [h6]
      simp [reflectIdx, hN, hm, hlt]

end

theorem neg_emod_of {c i : ℤ} (hc : 0 < c) :
    (-i) % c = if i % c = 0 then 0 else c - i % c := by
  have h1 := Int.emod_nonneg i (b := c) (by omega)
  have h2 := Int.emod_lt_of_pos i hc
  have h3 := Int.emod_add_mul_ediv i c
  split
  · have : -i = 0 + c * (-(i / c)) := by rw [mul_neg]; omega
    rw [this, Int.add_mul_emod_self_left]; simp
  · have : -i = (c - i % c) + c * (-(i / c) - 1) := by
      have : c * (-(i / c) - 1) = -(c * (i / c)) - c := by ring
      rw [this]; omega
    rw [this, Int.add_mul_emod_self_left, Int.emod_eq_of_lt (by omega) (by omega)]

theorem neg_one_sub_emod {c i : ℤ} (hc : 0 < c) : (-1 - i) % c = c - 1 - i % c := by
  have h1 := Int.emod_nonneg i (b := c) (by omega)
  have h2 := Int.emod_lt_of_pos i hc
  have h3 := Int.emod_add_mul_ediv i c
  have : -1 - i = (c - 1 - i % c) + c * (-(i / c) - 1) := by
    have : c * (-(i / c) - 1) = -(c * (i / c)) - c := by ring
    rw [this]; omega
  rw [this, Int.add_mul_emod_self_left, Int.emod_eq_of_lt (by omega) (by omega)]

theorem reflectIdx_even {N : ℕ} (h : 0 < N) (i : ℤ) :
    reflectIdx N h (-i) = reflectIdx N h i := by
  by_cases hN : N = 1
  · simp [reflectIdx, hN]
  · unfold reflectIdx
    rw [dif_neg hN, dif_neg hN]
    have hc : (0:ℤ) < 2 * N - 2 := by omega
    simp only [neg_emod_of (i := i) hc]
    have h3 := Int.emod_nonneg i (b := (2 * N - 2 : ℤ)) (by omega)
    have h4 := Int.emod_lt_of_pos i hc
    ext
    split <;> split <;> split <;> simp only <;> omega

theorem reflectIdx_periodic {N : ℕ} (h : 0 < N) (i : ℤ) :
    reflectIdx N h (i + (2 * N - 2)) = reflectIdx N h i := by
  unfold reflectIdx
  simp only [Int.add_emod_right]

/-- Index map of the half-sample mirror (used only to show that an extension exists). -/
def symIdx (N : ℕ) (h : 0 < N) (i : ℤ) : Fin N :=
  ⟨if (i % (2 * N : ℤ)).toNat < N then (i % (2 * N : ℤ)).toNat
   else 2 * N - 1 - (i % (2 * N : ℤ)).toNat, by
    have h3 := Int.emod_nonneg i (b := (2 * N : ℤ)) (by omega)
    have h4 := Int.emod_lt_of_pos i (b := (2 * N : ℤ)) (by omega)
    split <;> omega⟩

/-- An extension exists for every scheme, so statements quantified over extensions are not void. -/
theorem exists_extension [Zero α] (t : PadType) (x : List α) (h : 0 < x.length) :
    ∃ E : ℤ → α, IsExtension t x E := by
  cases t with
  | zero =>
    refine ⟨fun i => if hi : 0 ≤ i ∧ i < x.length then x[i.toNat]'(by omega) else 0, ?_, ?_⟩
    · intro i hi; simp [hi]
    · intro i hi; simp only; rw [dif_neg (by omega)]
  | wrap =>
    refine ⟨fun i => x[wrapIdx x.length h i], ?_, ?_⟩
    · intro i hi
      simp [wrapIdx, Int.emod_eq_of_lt (show (0:ℤ) ≤ i by omega) (show (i:ℤ) < x.length by omega)]
    · intro i; simp [wrapIdx]
  | replicate =>
    refine ⟨fun i => x[edgeIdx x.length h i], ?_, ?_, ?_⟩
    · intro i hi
      have : min i (x.length - 1) = i := by omega
      have h0 : ¬ ((i:ℤ) < 0) := by omega
      simp [edgeIdx, this, h0]
    · intro i hi
      rcases lt_or_eq_of_le hi with h' | rfl
      · simp [edgeIdx, h']
      · rfl
    · intro i hi
      have e : edgeIdx x.length h i = edgeIdx x.length h ((x.length : ℤ) - 1) := by
        unfold edgeIdx; ext; simp only; split <;> split <;> omega
      simp only [e]
  | reflect =>
    refine ⟨fun i => x[reflectIdx x.length h i], ?_, ?_, ?_, ?_⟩
    · intro i hi
      by_cases hN : x.length = 1
      · have : i = 0 := by omega
        subst this; simp [reflectIdx, hN]
      · have e : ((i : ℤ) % (2 * x.length - 2 : ℤ)) = i := Int.emod_eq_of_lt (by omega) (by omega)
        simp [reflectIdx, hN, e, hi]
    · intro i; simp only [reflectIdx_even]
    · intro i
      have e : reflectIdx x.length h ((x.length : ℤ) - 1 + i)
          = reflectIdx x.length h ((x.length : ℤ) - 1 - i) := by
        rw [← reflectIdx_even h ((x.length : ℤ) - 1 - i), ← reflectIdx_periodic h (-_)]
        congr 1; ring
      simp only [e]
    · intro hN i; simp [reflectIdx, hN]
  | symmetric =>
    refine ⟨fun i => x[symIdx x.length h i], ?_, ?_, ?_⟩
    · intro i hi
      have e : ((i : ℤ) % (2 * x.length : ℤ)) = i := Int.emod_eq_of_lt (by omega) (by omega)
      simp [symIdx, e, hi]
    · intro i
      have e : symIdx x.length h (-1 - i) = symIdx x.length h i := by
        unfold symIdx
        have h3 := Int.emod_nonneg i (b := (2 * x.length : ℤ)) (by omega)
        have h4 := Int.emod_lt_of_pos i (b := (2 * x.length : ℤ)) (by omega)
        simp only [neg_one_sub_emod (i := i) (show (0:ℤ) < 2 * x.length by omega)]
        ext; simp only; split <;> split <;> omega
      simp only [e]
    · intro i
      have e : symIdx x.length h ((x.length : ℤ) + i) = symIdx x.length h ((x.length : ℤ) - 1 - i) := by
        have e1 : (-1 - ((x.length : ℤ) + i)) + 2 * x.length = (x.length : ℤ) - 1 - i := by ring
        unfold symIdx
        have h3 := Int.emod_nonneg ((x.length : ℤ) + i) (b := (2 * x.length : ℤ)) (by omega)
        have h4 := Int.emod_lt_of_pos ((x.length : ℤ) + i) (b := (2 * x.length : ℤ)) (by omega)
        simp only [← e1, Int.add_emod_right,
          neg_one_sub_emod (i := (x.length : ℤ) + i) (show (0:ℤ) < 2 * x.length by omega)]
        ext; simp only; split <;> split <;> omega
      simp only [e]

end Ssq

namespace Ssq
open Spec
variable {α : Type}

theorem padSymmetric_ext [Zero α] (x : List α) (n1 n2 : ℤ) (h1 : 1 ≤ n1) (h1' : n1 ≤ x.length)
    (h2 : 0 ≤ n2) (h2' : n2 ≤ x.length) (E : ℤ → α) (hE : IsExtension .symmetric x E) :
    ((padSymmetric x n1 n2).length : ℤ) = n1 + x.length + n2 ∧
    ∀ (p : ℕ) (h : p < (padSymmetric x n1 n2).length),
      (padSymmetric x n1 n2)[p] = E ((p : ℤ) - n1) := by
  obtain ⟨a, rfl⟩ := Int.eq_ofNat_of_zero_le (show 0 ≤ n1 by omega)
  obtain ⟨b, rfl⟩ := Int.eq_ofNat_of_zero_le h2
  have e : padSymmetric x a b = x.reverse.drop (x.length - a) ++ x ++ x.reverse.take b := by
    unfold padSymmetric
    rw [pyFrom_neg _ a (by omega), pyUpto_nat]
    simp
  obtain ⟨hag, hl, hr⟩ := hE
  refine ⟨by rw [e]; simp; omega, ?_⟩
  intro p hp
  simp only [e]
  rw [List.getElem_append]
  have hp' : p < a + x.length + b := by rw [e] at hp; simp at hp; omega
  have hlen : (x.reverse.drop (x.length - a)).length = a := by simp; omega
  simp only [List.getElem_append, List.length_append, hlen]
  split
  · split
    · rename_i hpa
      rw [List.getElem_drop, List.getElem_reverse]
      have := hag (x.length - 1 - (x.length - a + p)) (by omega)
      rw [← this, ← hl]
      congr 1
      omega
    · rename_i hpa
      have := hag (p - a) (by omega)
      rw [← this]
      congr 1
      omega
  · rename_i hpa
    rw [List.getElem_take, List.getElem_reverse]
    have := hag (x.length - 1 - (p - (a + x.length))) (by omega)
    rw [← this]
    have hr' := hr ((p : ℤ) - a - x.length)
    rw [show (x.length : ℤ) + ((p : ℤ) - a - x.length) = (p : ℤ) - a by ring] at hr'
    rw [show ((p : ℤ) - ((a : ℕ) : ℤ)) = (p:ℤ) - a from rfl, hr']
    congr 1
    omega

/-- Every scheme: the padded list has the right length and follows the extension. -/
theorem padNumpy_ext [Zero α] (t : PadType) (x : List α) (n1 n2 : ℤ) (hx : 0 < x.length)
    (h1 : 0 ≤ n1) (h2 : 0 ≤ n2)
    (hsym : t = .symmetric → 1 ≤ n1 ∧ n1 ≤ x.length ∧ n2 ≤ x.length) :
    ∃ xp, padNumpy t x n1 n2 = .ok xp ∧ (xp.length : ℤ) = n1 + x.length + n2 ∧
      ∀ E, IsExtension t x E → ∀ (p : ℕ) (h : p < xp.length), xp[p] = E ((p : ℤ) - n1) := by
  cases t with
  | zero =>
    refine ⟨_, by simp only [padNumpy, npPadZero]; rw [if_neg (by omega)], by simp; omega, ?_⟩
    intro E hE p hp
    obtain ⟨hag, hz⟩ := hE
    simp only [List.getElem_append, List.length_append, List.length_replicate]
    split
    · split
      · rw [List.getElem_replicate, hz _ (by omega)]
      · have := hag (p - n1.toNat) (by omega)
        rw [← this]; congr 1; omega
    · rw [List.getElem_replicate, hz _ (by omega)]
  | reflect =>
    refine ⟨_, npPadIdx_ok _ x n1 n2 hx h1 h2, by simp; omega, ?_⟩
    intro E hE p hp
    rw [List.getElem_map, List.getElem_range]
    exact ext_reflect hx hE _
  | replicate =>
    refine ⟨_, npPadIdx_ok _ x n1 n2 hx h1 h2, by simp; omega, ?_⟩
    intro E hE p hp
    rw [List.getElem_map, List.getElem_range]
    exact ext_edge hx hE _
  | wrap =>
    refine ⟨_, npPadIdx_ok _ x n1 n2 hx h1 h2, by simp; omega, ?_⟩
    intro E hE p hp
    rw [List.getElem_map, List.getElem_range]
    exact ext_wrap hx hE _
  | symmetric =>
    obtain ⟨a, b, c⟩ := hsym rfl
    obtain ⟨E0, hE0⟩ := exists_extension .symmetric x hx
    refine ⟨_, rfl, (padSymmetric_ext x n1 n2 a b h2 c E0 hE0).1, ?_⟩
    intro E hE p hp
    exact (padSymmetric_ext x n1 n2 a b h2 c E hE).2 p hp

theorem unpad_of_ext [Zero α] {t : PadType} {x xp : List α} {n1 n2 : ℤ} (hx : 0 < x.length)
    (h1 : 0 ≤ n1) (h2 : 0 ≤ n2)
    (hl : (xp.length : ℤ) = n1 + x.length + n2)
    (h : ∀ E, IsExtension t x E → ∀ (p : ℕ) (h : p < xp.length), xp[p] = E ((p : ℤ) - n1)) :
    unpad xp n1 x.length = x := by
  obtain ⟨E, hE⟩ := exists_extension t x hx
  obtain ⟨a, rfl⟩ := Int.eq_ofNat_of_zero_le h1
  unfold unpad
  have : ((a : ℕ) : ℤ) + x.length = ((a + x.length : ℕ) : ℤ) := by push_cast; rfl
  have e := pySlice_nat xp a (a + x.length)
  push_cast at e
  rw [e]
  apply List.ext_getElem
  · simp; omega
  · intro i hi hi'
    rw [List.getElem_take, List.getElem_drop, h E hE _ (by omega), ← hE.1 i hi']
    congr 1; push_cast; ring

end Ssq
