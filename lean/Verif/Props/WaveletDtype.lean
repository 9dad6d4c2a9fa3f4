import Verif.Props.WaveletInit
import Mathlib.Data.List.Infix

/-!
# C104, C106: the dtype of a wavelet, and the parameters of the built-in wavelets
-/
namespace Ssq

/-- **C104**, parameters: the options each built-in wavelet takes. -/
theorem C104_parameters (name k : PyS) : k ∈ wavParams name ↔
    (name = "gmw".toList ∧ k ∈ ["gamma", "beta", "norm", "order", "centered_scale", "dtype"].map String.toList) ∨
    (name = "morlet".toList ∧ k ∈ ["mu", "dtype"].map String.toList) ∨
    (name = "bump".toList ∧ k ∈ ["mu", "s", "om", "dtype"].map String.toList) ∨
    (name = "cmhat".toList ∧ k ∈ ["mu", "s", "dtype"].map String.toList) ∨
    (name = "hhhat".toList ∧ k ∈ ["mu", "dtype"].map String.toList) := by
  unfold wavParams
  have n1 : "morlet".toList ≠ "gmw".toList := by decide
  have n2 : "bump".toList ≠ "gmw".toList := by decide
  have n3 : "cmhat".toList ≠ "gmw".toList := by decide
  have n4 : "hhhat".toList ≠ "gmw".toList := by decide
  have n5 : "bump".toList ≠ "morlet".toList := by decide
  have n6 : "cmhat".toList ≠ "morlet".toList := by decide
  have n7 : "hhhat".toList ≠ "morlet".toList := by decide
  have n8 : "cmhat".toList ≠ "bump".toList := by decide
  have n9 : "hhhat".toList ≠ "bump".toList := by decide
  have n10 : "hhhat".toList ≠ "cmhat".toList := by decide
  simp only [List.map_cons, List.map_nil]
  by_cases h1 : name = "gmw".toList
  · subst h1
    rw [if_pos rfl]
    simp only [true_and, n1.symm, n2.symm, n3.symm, n4.symm, false_and, or_false]
  rw [if_neg h1]
  by_cases h2 : name = "morlet".toList
  · subst h2
    rw [if_pos rfl]
    simp only [true_and, n1, n5.symm, n6.symm, n7.symm, false_and, or_false, false_or]
  rw [if_neg h2]
  by_cases h3 : name = "bump".toList
  · subst h3
    rw [if_pos rfl]
    simp only [true_and, n2, n5, n8.symm, n9.symm, false_and, or_false, false_or]
  rw [if_neg h3]
  by_cases h4 : name = "cmhat".toList
  · subst h4
    rw [if_pos rfl]
    simp only [true_and, n3, n6, n8, n10.symm, false_and, or_false, false_or]
  rw [if_neg h4]
  by_cases h5 : name = "hhhat".toList
  · subst h5
    rw [if_pos rfl]
    simp only [true_and, n4, n7, n9, n10, false_and, false_or]
  rw [if_neg h5]
  simp only [h1, h2, h3, h4, h5, false_and, or_false, List.not_mem_nil]

/-- **C106**, strings: no string other than 'float32' and 'float64' is accepted as `dtype`, for any kind of wavelet. -/
theorem C106_strings (g : GDict) (check : PyS → PyDict CfgV → Py Unit) (w : WavArg) (s : PyS) (v : WvObj)
    (h : waveletInit g check w (.str s) = .ok v) : s = "float32".toList ∨ s = "float64".toList := by
  unfold waveletInit at h
  obtain ⟨d, h1, -⟩ := bind_ok (x := initDtype (.str s)) h
  unfold initDtype processDtype at h1
  by_cases hs : s ∈ dtypesSupported
  · simpa [dtypesSupported] using hs
  · simp only [if_neg hs] at h1
    exact nomatch h1

/-- **C106**, functions: a custom function has the precision of what it returns for a float32 array, real or complex. -/
theorem C106_function (g : GDict) (check : PyS → PyDict CfgV → Py Unit) (q out : PyS) :
    (out = "float32".toList ∨ out = "complex64".toList →
      waveletInit g check (.fn q out) .none = .ok { qual := q, config := [], dtype := "float32".toList }) ∧
    (out = "float64".toList ∨ out = "complex128".toList →
      waveletInit g check (.fn q out) .none = .ok { qual := q, config := [], dtype := "float64".toList }) := by
  constructor <;> rintro (rfl | rfl) <;> rfl

theorem pyContains_iff (p s : PyS) : pyContains p s = true ↔ ∃ u v, s = u ++ p ++ v := by
  unfold pyContains
  rw [List.any_eq_true]
  constructor
  · rintro ⟨t, ht, hp⟩
    obtain ⟨u, rfl⟩ := (List.mem_tails t s).1 ht
    obtain ⟨v, rfl⟩ := List.isPrefixOf_iff_prefix.1 hp
    exact ⟨u, v, by simp⟩
  · rintro ⟨u, v, rfl⟩
    exact ⟨p ++ v, (List.mem_tails _ _).2 ⟨u, by simp⟩, List.isPrefixOf_iff_prefix.2 ⟨v, rfl⟩⟩

/-- **C106**, functions of tensors: the text of the dtype may have more around the name, as `torch.complex64`. -/
theorem C106_function_text (g : GDict) (check : PyS → PyDict CfgV → Py Unit) (q u v : PyS) :
    waveletInit g check (.fn q (u ++ "complex64".toList ++ v)) .none = .ok { qual := q, config := [], dtype := "float32".toList } ∧
    ((¬ ∃ a b, u ++ "complex128".toList ++ v = a ++ "complex64".toList ++ b) →
      waveletInit g check (.fn q (u ++ "complex128".toList ++ v)) .none = .ok { qual := q, config := [], dtype := "float64".toList }) := by
  have run : ∀ out d, dtypeFromOut out = .ok d → waveletInit g check (.fn q out) .none = .ok { qual := q, config := [], dtype := d } := by
    intro out d h
    unfold waveletInit
    simp [initDtype, h, Except.bind]
  refine ⟨run _ _ ?_, fun h => run _ _ ?_⟩
  · unfold dtypeFromOut
    rw [if_pos ((pyContains_iff _ _).2 ⟨u, v, rfl⟩)]
    rfl
  · unfold dtypeFromOut
    rw [if_neg (fun e => h ((pyContains_iff _ _).1 e)), if_pos ((pyContains_iff _ _).2 ⟨u, v, rfl⟩)]
    rfl

example (g : GDict) (check : PyS → PyDict CfgV → Py Unit) (q : PyS) :
    waveletInit g check (.fn q "torch.complex128".toList) .none = .ok { qual := q, config := [], dtype := "float64".toList } :=
  (C106_function_text g check q "torch.".toList []).2 (fun h => by
    have := (pyContains_iff "complex64".toList ("torch.".toList ++ "complex128".toList ++ [])).2 h
    revert this
    decide)

/-- **C104**, dtype. Without `dtype` argument, a built-in wavelet (other than with `norm='energy'`) has the precision of its option `dtype`,
given or configured; `bump`, whose values are complex, too. -/
theorem C104_dtype (num : PyS → Option ℚ) (txt : PyS) (g : GDict) (hg : getGdefaults num txt = .ok g)
    (check : PyS → PyDict CfgV → Py Unit) (name : PyS) (opts : PyDict CfgV) (ho : opts.keys.Nodup) (v : WvObj)
    (he : ¬ Spec.energy (Spec.wavSection g (pyLower name)) opts)
    (hv : waveletInit g check (.tuple [.str name, .dict opts]) .none = .ok v) (d : PyS)
    (hd : d = "float32".toList ∨ d = "float64".toList)
    (hopt : Spec.option (Spec.wavSection g (pyLower name)) opts "dtype".toList = some (.str d)) : v.dtype = d := by
  obtain ⟨d0, hd0, h⟩ := (waveletInit_named g check name opts .none v).mp hv
  injection (show (.ok none : Py (Option PyS)) = .ok d0 from hd0) with hd0
  subst hd0
  obtain ⟨-, hsup, r, hr, hkeys, -, out, hout, d', hd', rfl⟩ := (wavNamed_iff g check name opts none v).mp h
  obtain ⟨hf, -⟩ := wavFilled_spec num txt g hg (pyLower name) opts ho
  rw [wavProcessDtype_eq, hf] at hr
  unfold Spec.energy at he
  rw [if_neg he] at hr
  simp only at hr
  rw [hr] at hout hd'
  simp only at hout hd'
  rw [hf, hopt] at hout
  simp only at hout
  unfold wavOutDtype at hout
  simp only
  by_cases hb : pyLower name = "bump".toList
  · rw [if_pos hb] at hout
    rcases hd with rfl | rfl
    · rw [if_pos rfl] at hout
      injection hout with hout
      subst hout
      injection hd' with hd'
      exact hd'.symm
    · rw [if_neg (by decide), if_pos rfl] at hout
      injection hout with hout
      subst hout
      injection hd' with hd'
      exact hd'.symm
  · rw [if_neg hb] at hout
    rcases hd with rfl | rfl
    · rw [if_pos (by decide)] at hout
      injection hout with hout
      subst hout
      injection hd' with hd'
      exact hd'.symm
    · rw [if_pos (by decide)] at hout
      injection hout with hout
      subst hout
      injection hd' with hd'
      exact hd'.symm

/-- The hypotheses of `C104_dtype` are met by `('bump', {'mu': 5, 's': 1, 'om': 0, 'dtype': 'float32'})` with the configuration of the examples. -/
example : ∃ v, waveletInit exG noCheck (.tuple [.str "Bump".toList, .dict [("mu".toList, .num 5), ("s".toList, .num 1), ("om".toList, .num 0),
    ("dtype".toList, .str "float32".toList)]]) .none = .ok v ∧ v.dtype = "float32".toList := by
  refine ⟨_, rfl, ?_⟩
  rfl

end Ssq
