import Verif.Model.WaveletInit
import Verif.Props.Defaults
import Verif.Lemmas.PyM

/-!
# Building a wavelet: options (C104), the GMW norm (C105), dtypes (C106)
-/
namespace Ssq

/-- The configuration section of a built-in wavelet. -/
def Spec.wavSection (g : GDict) (name : PyS) : Option (PyDict CfgV) :=
  Spec.section? g (if name = "gmw".toList then "_gmw".toList else "wavelets".toList) name

/-- The value an option should have: the one given, unless it is absent or None, then the configured one. -/
def Spec.option (D : Option (PyDict CfgV)) (opts : PyDict CfgV) (k : PyS) : Option CfgV :=
  match opts.find k with
  | some .none => some ((D.bind fun d => d.find k).getD .none)
  | some v => some v
  | none => D.bind fun d => d.find k

/-- `norm='energy'` is in force. -/
def Spec.energy (D : Option (PyDict CfgV)) (opts : PyDict CfgV) : Prop :=
  Spec.option D opts "norm".toList = some (.str "energy".toList)

instance (D : Option (PyDict CfgV)) (opts : PyDict CfgV) : Decidable (Spec.energy D opts) := by
  unfold Spec.energy; infer_instance

/-- The options after filling: `gdefaults(f"{module}.{wavelet}", get_all=True, ...)`. -/
def wavFilled (g : GDict) (name : PyS) (opts : PyDict CfgV) : PyDict CfgV :=
  gdKw g (if name = "gmw".toList then "_gmw".toList else "wavelets".toList) name true true opts

theorem wavFilled_spec (num : PyS → Option ℚ) (txt : PyS) (g : GDict) (hg : getGdefaults num txt = .ok g) (name : PyS)
    (opts : PyDict CfgV) (ho : opts.keys.Nodup) :
    (∀ k, (wavFilled g name opts).find k = Spec.option (Spec.wavSection g name) opts k) ∧
    (∀ k ∈ (wavFilled g name opts).keys, k ∈ opts.keys ∨ ∃ D, Spec.wavSection g name = some D ∧ k ∈ D.keys) := by
  obtain ⟨h1, h2⟩ := C59_defaults num txt g hg (if name = "gmw".toList then "_gmw".toList else "wavelets".toList) name true true opts ho
  rcases hs : Spec.wavSection g name with _ | D
  · have e : wavFilled g name opts = opts := h1 hs
    rw [e]
    refine ⟨fun k => ?_, fun k hk => Or.inl hk⟩
    unfold Spec.option
    rcases hk : opts.find k with _ | v
    · rfl
    · cases v <;> rfl
  · obtain ⟨a, -, b⟩ := h2 D hs
    refine ⟨fun k => ?_, fun k hk => ?_⟩
    · refine (a k).trans ?_
      unfold Spec.filled Spec.option
      rcases hk : opts.find k with _ | v
      · rfl
      · cases v <;> rfl
    · have e : (wavFilled g name opts).keys = _ := b rfl
      rw [e] at hk
      simp only [if_true, List.mem_append, List.mem_filter] at hk
      rcases hk with hk | hk
      · exact Or.inr ⟨D, rfl, hk⟩
      · exact Or.inl hk.1

theorem wavProcessDtype_eq (o : PyDict CfgV) (d : Option PyS) :
    wavProcessDtype o d = if o.find "norm".toList = some (.str "energy".toList) then
      (o.set "dtype".toList (.str "float64".toList), some "float64".toList)
    else match d with
      | some d => (o.set "dtype".toList (.str d), some d)
      | none => (o, none) := by
  unfold wavProcessDtype
  by_cases h : o.find "norm".toList = some (.str "energy".toList)
  · rw [if_pos h, if_pos (by rw [h]; rfl)]
  · have h3 : ¬ (o.find "norm".toList).getD (.str "bandpass".toList) = .str "energy".toList := by
      rcases h2 : o.find "norm".toList with _ | v
      · decide
      · intro h1; exact h (by rw [h2]; exact congrArg some h1)
    rw [if_neg h, if_neg h3]
    cases d <;> rfl

theorem wavNamed_iff (g : GDict) (check : PyS → PyDict CfgV → Py Unit) (name : PyS) (opts : PyDict CfgV) (dtype : Option PyS) (v : WvObj) :
    wavNamed g check name opts dtype = .ok v ↔
      (∀ e ∈ opts, e.1 ∉ gdReserved) ∧ pyLower name ∈ wavSupported ∧
      ∃ r, r = wavProcessDtype (wavFilled g (pyLower name) opts) dtype ∧
      (∀ e ∈ r.1, e.1 ∈ wavParams (pyLower name)) ∧ check (pyLower name) r.1 = .ok () ∧
      ∃ out, wavOutDtype (pyLower name) (match r.1.find "dtype".toList with | some (.str s) => s | _ => "float64".toList) = .ok out ∧
      ∃ d, (match r.2 with | some d => .ok d | none => dtypeFromOut out) = (.ok d : Py PyS) ∧
      v = { qual := wavQual (pyLower name) r.1, config := r.1, dtype := d } := by
  unfold wavNamed
  simp only
  by_cases h1 : ∃ e ∈ opts, e.1 ∈ gdReserved
  · rw [if_pos h1]
    constructor
    · intro h; exact nomatch h
    · intro h
      obtain ⟨e, he, he'⟩ := h1
      exact absurd he' (h.1 e he)
  · rw [if_neg h1]
    have h1' : ∀ e ∈ opts, e.1 ∉ gdReserved := fun e he he' => h1 ⟨e, he, he'⟩
    by_cases h2 : pyLower name ∈ wavSupported
    · rw [if_pos h2]
      have ew : gdKw g (if pyLower name = "gmw".toList then "_gmw".toList else "wavelets".toList) (pyLower name) true true opts =
        wavFilled g (pyLower name) opts := rfl
      rw [ew]
      unfold wavBuild
      constructor
      · intro h
        obtain ⟨b, hb, h⟩ := bind_ok h
        obtain ⟨d, hd, h⟩ := bind_ok h
        by_cases h3 : ∀ e ∈ (wavProcessDtype (wavFilled g (pyLower name) opts) dtype).1, e.1 ∈ wavParams (pyLower name)
        · rw [if_pos h3] at hb
          obtain ⟨u, hu, hb⟩ := bind_ok hb
          obtain ⟨out, hout, hb⟩ := bind_ok hb
          refine ⟨h1', h2, _, rfl, h3, hu, out, hout, d, ?_, ?_⟩
          · injection hb with hb
            rw [← hb] at hd
            exact hd
          · injection hb with hb
            injection h with h
            rw [← h, ← hb]
        · rw [if_neg h3] at hb
          exact nomatch hb
      · rintro ⟨-, -, r, rfl, h3, h4, out, h5, d, h6, h7⟩
        rw [if_pos h3, h4]
        refine (bind_eq_ok _ _ _).mpr ⟨_, (bind_eq_ok _ _ _).mpr ⟨(), rfl, (bind_eq_ok _ _ _).mpr ⟨out, h5, rfl⟩⟩, ?_⟩
        exact (bind_eq_ok _ _ _).mpr ⟨d, h6, by rw [h7]⟩
    · rw [if_neg h2]
      constructor
      · intro h; exact nomatch h
      · intro h; exact absurd h.2.1 h2

theorem wavelet_runs {g : GDict} {check : PyS → PyDict CfgV → Py Unit} {name : PyS} {opts : PyDict CfgV} {dtype : DtypeArg}
    {d : Option PyS} (hd : initDtype dtype = .ok d) (r : PyDict CfgV × Option PyS)
    (h1 : ∀ e ∈ opts, e.1 ∉ gdReserved) (h2 : pyLower name ∈ wavSupported)
    (hr : wavProcessDtype (wavFilled g (pyLower name) opts) d = r)
    (h3 : ∀ e ∈ r.1, e.1 ∈ wavParams (pyLower name)) (h4 : check (pyLower name) r.1 = .ok ()) (out : PyS)
    (h5 : wavOutDtype (pyLower name) (match r.1.find "dtype".toList with | some (.str s) => s | _ => "float64".toList) = .ok out)
    (e : PyS) (h6 : (match r.2 with | some d => .ok d | none => dtypeFromOut out) = (.ok e : Py PyS)) :
    ∃ v, waveletInit g check (.tuple [.str name, .dict opts]) dtype = .ok v :=
  ⟨_, (bind_eq_ok _ _ _).mpr ⟨d, hd, (wavNamed_iff g check name opts d _).mpr
    ⟨h1, h2, r, hr.symm, h3, h4, out, h5, e, h6, rfl⟩⟩⟩

theorem initDtype_of {d : DtypeArg} {e : PyS} (h : processDtype d = .ok e) : initDtype d = .ok (some e) := by
  cases d with
  | none => exact nomatch h
  | other => exact nomatch h
  | str s => exact congrArg (Except.map some) h
  | cls s => exact congrArg (Except.map some) h
  | npDtype s => exact congrArg (Except.map some) h
  | torchDtype s => exact congrArg (Except.map some) h

theorem waveletInit_named (g : GDict) (check : PyS → PyDict CfgV → Py Unit) (name : PyS) (opts : PyDict CfgV) (dtype : DtypeArg) (v : WvObj) :
    waveletInit g check (.tuple [.str name, .dict opts]) dtype = .ok v ↔
      ∃ d, initDtype dtype = .ok d ∧ wavNamed g check name opts d = .ok v := by
  unfold waveletInit
  exact bind_eq_ok _ _ _

/-! ## C104 -/

/-- **C104**, options. If `Wavelet((name, options), dtype=...)` succeeds, for any configuration file: `name` is, up to case, one of the supported
names; its `config` contains every option with the value given, or the configured one when it is not given or None, except that `dtype` is
'float64' with `norm='energy'` and otherwise the constructor's `dtype` when that is given; every option given is a parameter of this wavelet. -/
theorem C104_options (num : PyS → Option ℚ) (txt : PyS) (g : GDict) (hg : getGdefaults num txt = .ok g)
    (check : PyS → PyDict CfgV → Py Unit) (name : PyS) (opts : PyDict CfgV) (ho : opts.keys.Nodup) (dtype : DtypeArg) (v : WvObj)
    (hv : waveletInit g check (.tuple [.str name, .dict opts]) dtype = .ok v) :
    pyLower name ∈ ["gmw".toList, "morlet".toList, "bump".toList, "cmhat".toList, "hhhat".toList] ∧
    (∀ k ∈ opts.keys, k ∈ wavParams (pyLower name)) ∧
    (∀ k, k ≠ "dtype".toList → v.config.find k = Spec.option (Spec.wavSection g (pyLower name)) opts k) ∧
    (Spec.energy (Spec.wavSection g (pyLower name)) opts → v.config.find "dtype".toList = some (.str "float64".toList) ∧ v.dtype = "float64".toList) ∧
    (¬ Spec.energy (Spec.wavSection g (pyLower name)) opts →
      (dtype = .none → v.config.find "dtype".toList = Spec.option (Spec.wavSection g (pyLower name)) opts "dtype".toList) ∧
      (∀ d, processDtype dtype = .ok d → v.config.find "dtype".toList = some (.str d) ∧ v.dtype = d)) := by
  obtain ⟨d, hd, h⟩ := (waveletInit_named g check name opts dtype v).mp hv
  obtain ⟨-, hsup, r, hr, hkeys, -, out, hout, d', hd', rfl⟩ := (wavNamed_iff g check name opts d v).mp h
  obtain ⟨hf, -⟩ := wavFilled_spec num txt g hg (pyLower name) opts ho
  rw [wavProcessDtype_eq, hf] at hr
  have hset : ∀ (o : PyDict CfgV) x k, k ≠ "dtype".toList → (o.set "dtype".toList x).find k = o.find k := by
    intro o x k hk
    rw [find_set, if_neg (Ne.symm hk)]
  have hfind : ∀ k, k ≠ "dtype".toList → r.1.find k = (wavFilled g (pyLower name) opts).find k := by
    intro k hk
    rw [hr]
    split_ifs
    · exact hset _ _ _ hk
    · cases d
      · rfl
      · exact hset _ _ _ hk
  refine ⟨hsup, ?_, ?_, ?_, ?_⟩
  · intro k hk
    by_cases hkd : k = "dtype".toList
    · subst hkd
      simp only [wavSupported, List.mem_cons, List.not_mem_nil, or_false] at hsup
      rcases hsup with h | h | h | h | h <;> rw [h] <;> decide
    · have h1 : r.1.find k ≠ none := by
        rw [hfind k hkd, hf]
        unfold Spec.option
        rcases hko : opts.find k with _ | w
        · exact absurd hk ((find_none_iff _ _).mp hko)
        · cases w <;> simp
      obtain ⟨w, hw⟩ := Option.ne_none_iff_exists'.mp h1
      exact hkeys _ (mem_of_find _ _ _ hw)
  · intro k hk
    change r.1.find k = _
    rw [hfind k hk, hf]
  · intro he
    unfold Spec.energy at he
    rw [if_pos he] at hr
    rw [hr] at hd'
    simp only at hd'
    injection hd' with hd'
    refine ⟨?_, hd'.symm⟩
    change r.1.find _ = _
    rw [hr, find_set, if_pos rfl]
  · intro he
    unfold Spec.energy at he
    rw [if_neg he] at hr
    constructor
    · rintro rfl
      injection (show (.ok none : Py (Option PyS)) = .ok d from hd) with hd
      subst hd
      simp only at hr
      change r.1.find _ = _
      rw [hr, hf]
    · intro e hde
      have : d = some e := by
        have := (initDtype_of hde).symm.trans hd
        injection this with this
        exact this.symm
      subst this
      simp only at hr
      rw [hr] at hd'
      injection hd' with hd'
      refine ⟨?_, hd'.symm⟩
      change r.1.find _ = _
      rw [hr, find_set, if_pos rfl]

theorem toLower_toLower (c : Char) : c.toLower.toLower = c.toLower := by
  by_cases h : c.val ≥ 'A'.val ∧ c.val ≤ 'Z'.val
  · obtain ⟨h1, h2⟩ := h
    have e : c.toLower.val = c.val + ('a'.val - 'A'.val) := by
      unfold Char.toLower
      rw [dif_pos ⟨h1, h2⟩]
    have h3 : ¬ (c.toLower.val ≥ 'A'.val ∧ c.toLower.val ≤ 'Z'.val) := by
      rw [e]
      rintro ⟨-, h4⟩
      have a1 : 65 ≤ c.val.toNat := UInt32.le_iff_toNat_le.mp h1
      have a2 : c.val.toNat ≤ 90 := UInt32.le_iff_toNat_le.mp h2
      have a4 : (c.val + ('a'.val - 'A'.val)).toNat ≤ 90 := UInt32.le_iff_toNat_le.mp h4
      rw [UInt32.toNat_add] at a4
      have a5 : ('a'.val - 'A'.val).toNat = 32 := rfl
      rw [a5] at a4
      omega
    conv_lhs => unfold Char.toLower
    exact dif_neg h3
  · have : c.toLower = c := by
      unfold Char.toLower
      exact dif_neg h
    rw [this, this]

/-- **C104**, forms. A name alone is the name without options, and case does not matter. -/
theorem C104_forms (g : GDict) (check : PyS → PyDict CfgV → Py Unit) (name : PyS) (opts : PyDict CfgV) (dtype : DtypeArg) :
    waveletInit g check (.str name) dtype = waveletInit g check (.tuple [.str name, .dict []]) dtype ∧
    waveletInit g check (.tuple [.str name, .dict opts]) dtype = waveletInit g check (.tuple [.str (pyLower name), .dict opts]) dtype := by
  constructor
  · rfl
  · unfold waveletInit wavNamed
    have : pyLower (pyLower name) = pyLower name := by
      unfold pyLower; rw [List.map_map]; exact List.map_congr_left fun c _ => toLower_toLower c
    simp only [this]

/-- **C104**, success. Supported name, parameters of this wavelet only (given or configured), a dtype that is supported: nothing else is needed but that
the values pass the wavelet's own checks. -/
theorem C104_succeeds (num : PyS → Option ℚ) (txt : PyS) (g : GDict) (hg : getGdefaults num txt = .ok g)
    (check : PyS → PyDict CfgV → Py Unit) (name : PyS) (opts : PyDict CfgV) (ho : opts.keys.Nodup) (dtype : DtypeArg)
    (hn : pyLower name ∈ ["gmw".toList, "morlet".toList, "bump".toList, "cmhat".toList, "hhhat".toList])
    (hk : ∀ k ∈ opts.keys, k ∈ wavParams (pyLower name))
    (hD : ∀ D, Spec.wavSection g (pyLower name) = some D → ∀ k ∈ D.keys, k ∈ wavParams (pyLower name))
    (hcheck : ∀ o, check (pyLower name) o = .ok ())
    (hd : Spec.energy (Spec.wavSection g (pyLower name)) opts ∧ (dtype = .none ∨ ∃ s, processDtype dtype = .ok s) ∨
      dtype = .none ∧ (∃ s ∈ ["float32".toList, "float64".toList],
        Spec.option (Spec.wavSection g (pyLower name)) opts "dtype".toList = some (.str s)) ∨
      ∃ s ∈ ["float32".toList, "float64".toList], processDtype dtype = .ok s) :
    ∃ v, waveletInit g check (.tuple [.str name, .dict opts]) dtype = .ok v := by
  obtain ⟨hf, hkeys⟩ := wavFilled_spec num txt g hg (pyLower name) opts ho
  have hnr : ∀ k ∈ wavParams (pyLower name), k ∉ gdReserved := by
    simp only [List.mem_cons, List.not_mem_nil, or_false] at hn
    rcases hn with h | h | h | h | h <;> rw [h] <;> decide
  have hdt : "dtype".toList ∈ wavParams (pyLower name) := by
    simp only [List.mem_cons, List.not_mem_nil, or_false] at hn
    rcases hn with h | h | h | h | h <;> rw [h] <;> decide
  have hfk : ∀ k ∈ (wavFilled g (pyLower name) opts).keys, k ∈ wavParams (pyLower name) := by
    intro k h
    rcases hkeys k h with h | ⟨D, h1, h2⟩
    · exact hk k h
    · exact hD D h1 k h2
  have hsetk : ∀ x, ∀ e ∈ (wavFilled g (pyLower name) opts).set "dtype".toList x, e.1 ∈ wavParams (pyLower name) := by
    intro x e he
    have : e.1 ∈ ((wavFilled g (pyLower name) opts).set "dtype".toList x).keys := List.mem_map_of_mem he
    rw [keys_set] at this
    split_ifs at this
    · exact hfk _ this
    · rw [List.mem_append] at this
      rcases this with h | h
      · exact hfk _ h
      · rw [List.mem_singleton.mp h]; exact hdt
  have hout : ∀ s ∈ ["float32".toList, "float64".toList], ∃ out, wavOutDtype (pyLower name) s = .ok out ∧ ∃ d, dtypeFromOut out = .ok d := by
    intro s hs
    simp only [List.mem_cons, List.not_mem_nil, or_false] at hs hn
    rcases hn with h | h | h | h | h <;> rcases hs with h' | h' <;> rw [h, h'] <;> exact ⟨_, rfl, _, rfl⟩
  have hset : ∀ (o : PyDict CfgV) s, (match (o.set "dtype".toList (.str s)).find "dtype".toList with | some (.str s) => s | _ => "float64".toList) = s := by
    intro o s; rw [find_set, if_pos rfl]
  have hnrO : ∀ e ∈ opts, e.1 ∉ gdReserved := fun e he => hnr _ (hk _ (List.mem_map_of_mem he))
  by_cases hE : Spec.energy (Spec.wavSection g (pyLower name)) opts
  · have hE' : (wavFilled g (pyLower name) opts).find "norm".toList = some (.str "energy".toList) := by rw [hf]; exact hE
    have hdi : ∃ d, initDtype dtype = .ok d := by
      rcases hd with ⟨-, rfl | ⟨s, h⟩⟩ | ⟨rfl, -⟩ | ⟨s, -, h⟩
      · exact ⟨_, rfl⟩
      · exact ⟨_, initDtype_of h⟩
      · exact ⟨_, rfl⟩
      · exact ⟨_, initDtype_of h⟩
    obtain ⟨d, hdi⟩ := hdi
    obtain ⟨out, h1, -⟩ := hout "float64".toList (by decide)
    exact wavelet_runs hdi _ hnrO hn (by rw [wavProcessDtype_eq, if_pos hE']) (hsetk _) (hcheck _) out (by rw [hset]; exact h1) _ rfl
  · have hE' : ¬ (wavFilled g (pyLower name) opts).find "norm".toList = some (.str "energy".toList) := by rw [hf]; exact hE
    rcases hd with ⟨h, -⟩ | ⟨rfl, s, hs, h⟩ | ⟨s, hs, h⟩
    · exact absurd h hE
    · obtain ⟨out, h1, d, h2⟩ := hout s hs
      exact wavelet_runs (d := none) rfl (wavFilled g (pyLower name) opts, none) hnrO hn (by rw [wavProcessDtype_eq, if_neg hE'])
        (fun e he => hfk _ (List.mem_map_of_mem he)) (hcheck _) out (by simp only [hf, h]; exact h1) d h2
    · obtain ⟨out, h1, -⟩ := hout s hs
      exact wavelet_runs (initDtype_of h) ((wavFilled g (pyLower name) opts).set "dtype".toList (.str s), some s) hnrO hn
        (by rw [wavProcessDtype_eq, if_neg hE']) (hsetk _) (hcheck _) out (by rw [hset]; exact h1) _ rfl

/-- **C104**, rejection. A name that is not supported, or an option the wavelet does not have, is an error, whatever the configuration. -/
theorem C104_rejects (num : PyS → Option ℚ) (txt : PyS) (g : GDict) (hg : getGdefaults num txt = .ok g)
    (check : PyS → PyDict CfgV → Py Unit) (name : PyS) (opts : PyDict CfgV) (ho : opts.keys.Nodup) (dtype : DtypeArg)
    (h : pyLower name ∉ ["gmw".toList, "morlet".toList, "bump".toList, "cmhat".toList, "hhhat".toList] ∨
      ∃ k ∈ opts.keys, k ∉ wavParams (pyLower name)) :
    ∃ e, waveletInit g check (.tuple [.str name, .dict opts]) dtype = .error e := by
  rcases hv : waveletInit g check (.tuple [.str name, .dict opts]) dtype with e | v
  · exact ⟨e, rfl⟩
  · obtain ⟨h1, h2, -⟩ := C104_options num txt g hg check name opts ho dtype v hv
    rcases h with h | ⟨k, hk, h⟩
    · exact absurd h1 h
    · exact absurd (h2 k hk) h

/-! ### The shipped `gmw` section -/

/-- `float` on the numbers of the example. -/
def exNum (s : PyS) : Option ℚ :=
  if s = "3".toList then some 3 else if s = "60".toList then some 60 else if s = "0".toList then some 0 else none

/-- The `gmw` section of the shipped `configs.ini`. -/
def exIni : PyS :=
  "## _gmw\n# gmw\ngamma=3\nbeta=60\nnorm=bandpass\norder=0\ncentered_scale=False\ndtype=float32\n\n#### END".toList

/-- Its values. -/
def exGmwD : PyDict CfgV :=
  [("gamma".toList, .num 3), ("beta".toList, .num 60), ("norm".toList, .str "bandpass".toList), ("order".toList, .num 0),
    ("centered_scale".toList, .bool false), ("dtype".toList, .str "float32".toList)]

def exG : GDict := [("_gmw".toList, [("gmw".toList, exGmwD)])]

theorem exIni_ok : getGdefaults exNum exIni = .ok exG := by rfl

/-- Values are always accepted. -/
def noCheck (_ : PyS) (_ : PyDict CfgV) : Py Unit := .ok ()

example : waveletInit exG noCheck (.tuple [.str "GMW".toList, .dict [("beta".toList, .num 12), ("gamma".toList, .none)]]) .none =
    .ok { qual := "gmw_l1.<locals>.<lambda>".toList, dtype := "float32".toList,
          config := [("gamma".toList, .num 3), ("beta".toList, .num 12), ("norm".toList, .str "bandpass".toList), ("order".toList, .num 0),
            ("centered_scale".toList, .bool false), ("dtype".toList, .str "float32".toList)] } := by rfl

example : waveletInit exG noCheck (.tuple [.str "gmw".toList, .dict [("mu".toList, .num 12)]]) .none = .error .typeError := by rfl
example : waveletInit exG noCheck (.str "gmv".toList) .none = .error .valueError := by rfl
example : pyReplace "ab".toList "x".toList "aabab".toList = "axx".toList := by rfl

/-! ## C105 -/

/-- The norm that goes with `l1_norm`. -/
def Spec.normFor (l1 : Bool) : CfgV := .str (if l1 then "bandpass".toList else "energy".toList)

/-- A Generalized Morse Wavelet, by its displayed name. -/
def Spec.IsGmw (v : WvObj) : Prop := v.name.take 4 = "GMW ".toList

/-- A wavelet object that exists was made by `Wavelet(...)`. -/
def Spec.Made (g : GDict) (check : PyS → PyDict CfgV → Py Unit) (w : WavArg) : Prop :=
  ∀ v, w = .inst v → ∃ w' d, waveletInit g check w' d = .ok v

/-- **C105**, in full: in any sequence of calls with one and the same `wavelet` argument, each call that uses a Generalized Morse Wavelet uses the
norm that goes with its own `l1_norm`. -/
def C105_full : Prop :=
  ∀ (num : PyS → Option ℚ) (txt : PyS) (g : GDict) (check : PyS → PyDict CfgV → Py Unit), getGdefaults num txt = .ok g →
  ∀ (w : WavArg), Spec.Made g check w →
  ∀ (ls : List Bool) (i : ℕ) (l : Bool) (v : WvObj), ls[i]? = some l → (cwtWavelets g check w ls)[i]? = some (.ok v) → Spec.IsGmw v →
    v.config.find "norm".toList = some (Spec.normFor l)

/-- The options `{}` remember the norm of the first call: the second call, with `l1_norm=False`, uses the L1-normed wavelet. -/
theorem C105_refuted : ¬ C105_full := by
  intro h
  have := h exNum exIni exG noCheck exIni_ok (.tuple [.str "gmw".toList, .dict []]) (fun v hv => nomatch hv) [true, false] 1 false
    { qual := "gmw_l1.<locals>.<lambda>".toList, dtype := "float32".toList, config := exGmwD } rfl rfl (by rfl)
  revert this
  decide

/-- A `gmw` of order 2. -/
def exOrd2 : PyDict CfgV :=
  [("gamma".toList, .num 3), ("beta".toList, .num 60), ("norm".toList, .str "bandpass".toList), ("order".toList, .num 2),
    ("centered_scale".toList, .bool false), ("dtype".toList, .str "float32".toList)]

theorem exOrd2_ok : waveletInit exG noCheck (.tuple [.str "gmw".toList, .dict [("order".toList, .num 2)]]) .none =
    .ok { qual := "gmw_l1_k.<locals>.<lambda>".toList, dtype := "float32".toList, config := exOrd2 } := by
  have hq : wavQual "gmw".toList exOrd2 = "gmw_l1_k.<locals>.<lambda>".toList := by
    have h1 : exOrd2.find "order".toList = some (.num 2) := by rfl
    have h2 : CfgV.isZero (.num 2) = false := by simp [CfgV.isZero]
    have h3 : exOrd2.find "norm".toList = some (.str "bandpass".toList) := by rfl
    unfold wavQual
    rw [h1, h3, Option.any_some, h2]
    rfl
  have hf : wavFilled exG "gmw".toList [("order".toList, .num 2)] = exOrd2 := by rfl
  refine (waveletInit_named _ _ _ _ _ _).mpr ⟨none, rfl, (wavNamed_iff _ _ _ _ _ _).mpr ⟨by decide, by decide, (exOrd2, none), ?_, by decide, rfl,
      "float32".toList, by rfl, "float32".toList, by rfl, ?_⟩⟩
  · change _ = wavProcessDtype (wavFilled exG "gmw".toList [("order".toList, .num 2)]) none
    rw [hf]; rfl
  · change _ = WvObj.mk (wavQual "gmw".toList exOrd2) exOrd2 "float32".toList
    rw [hq]

/-- An object of order 2 and 'bandpass' norm is used with `l1_norm=False`: its name is 'GMW L1 K', which is not checked. -/
theorem C105_order_refuted : ¬ C105_full := by
  intro h
  have := h exNum exIni exG noCheck exIni_ok (.inst _)
    (fun v' hv' => ⟨.tuple [.str "gmw".toList, .dict [("order".toList, .num 2)]], .none, by injection hv' with hv'; rw [← hv']; exact exOrd2_ok⟩)
    [false] 0 false _ rfl rfl (by rfl)
  have h3 : exOrd2.find "norm".toList = some (.str "bandpass".toList) := by rfl
  simp only at this
  rw [h3] at this
  revert this
  decide

/-- A norm that contradicts `l1_norm` is used when it is given with the options, while the same object is refused. -/
theorem C105_option_refuted : ¬ C105_full := by
  intro h
  have := h exNum exIni exG noCheck exIni_ok (.tuple [.str "gmw".toList, .dict [("norm".toList, .str "bandpass".toList)]])
    (fun v hv => nomatch hv) [false] 0 false
    { qual := "gmw_l1.<locals>.<lambda>".toList, dtype := "float32".toList, config := exGmwD } rfl rfl (by rfl)
  revert this
  decide

theorem named_norm (num : PyS → Option ℚ) (txt : PyS) (g : GDict) (hg : getGdefaults num txt = .ok g)
    (check : PyS → PyDict CfgV → Py Unit) (name : PyS) (opts : PyDict CfgV) (ho : opts.keys.Nodup) (v : WvObj)
    (hv : waveletInit g check (.tuple [.str name, .dict opts]) .none = .ok v) (x : PyS) (hx : opts.find "norm".toList = some (.str x)) :
    v.config.find "norm".toList = some (.str x) := by
  have h := (C104_options num txt g hg check name opts ho .none v hv).2.2.1 "norm".toList (by decide)
  rw [h]
  unfold Spec.option
  rw [hx]

/-- **C105**, a name. When the wavelet is given by name, every call uses the norm that goes with its `l1_norm`, and the wavelet is the one
`Wavelet(('gmw', {'norm': ...}))` makes. -/
theorem C105_name_partial (num : PyS → Option ℚ) (txt : PyS) (g : GDict) (hg : getGdefaults num txt = .ok g)
    (check : PyS → PyDict CfgV → Py Unit) (s : PyS) (hs : pyLower s = "gmw".toList) (ls : List Bool) (i : ℕ) (l : Bool) (hl : ls[i]? = some l) :
    (cwtWavelets g check (.str s) ls)[i]? =
      some (waveletInit g check (.tuple [.str "gmw".toList, .dict [("norm".toList, Spec.normFor l)]]) .none) ∧
    ∀ v, (cwtWavelets g check (.str s) ls)[i]? = some (.ok v) → v.config.find "norm".toList = some (Spec.normFor l) := by
  have key : (cwtWavelets g check (.str s) ls)[i]? =
      some (waveletInit g check (.tuple [.str "gmw".toList, .dict [("norm".toList, Spec.normFor l)]]) .none) := by
    have hw : ∀ l, cwtWavelet g check (.str s) l =
        (waveletInit g check (.tuple [.str "gmw".toList, .dict [("norm".toList, Spec.normFor l)]]) .none, .str s) := by
      intro l
      unfold cwtWavelet processGmw
      simp only
      rw [if_pos (by rw [hs]; rfl)]
      rfl
    induction ls generalizing i with
    | nil => simp at hl
    | cons a ls ih =>
      unfold cwtWavelets
      rw [hw]
      cases i with
      | zero =>
        rw [List.getElem?_cons_zero] at hl ⊢
        injection hl with hl
        rw [hl]
      | succ i =>
        rw [List.getElem?_cons_succ] at hl ⊢
        exact ih i hl
  refine ⟨key, fun v hv => ?_⟩
  rw [key] at hv
  injection hv with hv
  exact named_norm num txt g hg check "gmw".toList _ (by simp [PyDict.keys]) v hv _ (by rfl)

/-- **C105**, options. When the options do not name a norm, the first call uses the norm that goes with its `l1_norm` — and so do all later calls with
the same tuple, whatever their own `l1_norm`. -/
theorem C105_options_partial (num : PyS → Option ℚ) (txt : PyS) (g : GDict) (hg : getGdefaults num txt = .ok g)
    (check : PyS → PyDict CfgV → Py Unit) (s : PyS) (hs : pyLower s = "gmw".toList) (opts : PyDict CfgV) (ho : opts.keys.Nodup)
    (hn : opts.find "norm".toList = none) (l : Bool) (ls : List Bool) (i : ℕ) (hi : i ≤ ls.length) :
    (cwtWavelets g check (.tuple [.str s, .dict opts]) (l :: ls))[i]? =
      some (waveletInit g check (.tuple [.str s, .dict (opts.set "norm".toList (Spec.normFor l))]) .none) ∧
    ∀ v, (cwtWavelets g check (.tuple [.str s, .dict opts]) (l :: ls))[i]? = some (.ok v) →
      v.config.find "norm".toList = some (Spec.normFor l) := by
  have hset : ∀ (o : PyDict CfgV) x, o.find "norm".toList = some x → o.set "norm".toList x = o := by
    intro o x h
    induction o with
    | nil => exact nomatch h
    | cons e o ih =>
      rw [find_cons] at h
      unfold PyDict.set
      by_cases he : e.1 = "norm".toList
      · rw [if_pos he] at h
        rw [if_pos (by simpa using he)]
        injection h with h
        rw [← he, ← h]
      · rw [if_neg he] at h
        rw [if_neg (by simpa using he), ih h]
  have hw : ∀ (o : PyDict CfgV) l, cwtWavelet g check (.tuple [.str s, .dict o]) l =
      (waveletInit g check (.tuple [.str s, .dict (o.set "norm".toList ((o.find "norm".toList).getD (Spec.normFor l)))]) .none,
        .tuple [.str s, .dict (o.set "norm".toList ((o.find "norm".toList).getD (Spec.normFor l)))]) := by
    intro o l
    unfold cwtWavelet processGmw
    simp only
    rw [if_pos (by rw [hs]; rfl)]
    rfl
  set o' := opts.set "norm".toList (Spec.normFor l) with ho'
  have hf' : o'.find "norm".toList = some (Spec.normFor l) := by rw [ho', find_set, if_pos rfl]
  have hstay : ∀ l', cwtWavelet g check (.tuple [.str s, .dict o']) l' =
      (waveletInit g check (.tuple [.str s, .dict o']) .none, .tuple [.str s, .dict o']) := by
    intro l'
    rw [hw, hf', Option.getD_some, hset _ _ hf']
  have hrest : ∀ (ls : List Bool) (i : ℕ), i < ls.length →
      (cwtWavelets g check (.tuple [.str s, .dict o']) ls)[i]? = some (waveletInit g check (.tuple [.str s, .dict o']) .none) := by
    intro ls
    induction ls with
    | nil => intro i hi; simp at hi
    | cons a ls ih =>
      intro i hi
      unfold cwtWavelets
      rw [hstay]
      cases i with
      | zero => rfl
      | succ i =>
        rw [List.getElem?_cons_succ]
        exact ih i (by simpa using hi)
  have key : (cwtWavelets g check (.tuple [.str s, .dict opts]) (l :: ls))[i]? =
      some (waveletInit g check (.tuple [.str s, .dict o']) .none) := by
    unfold cwtWavelets
    rw [hw, hn]
    cases i with
    | zero => rfl
    | succ i =>
      rw [List.getElem?_cons_succ]
      exact hrest ls i hi
  refine ⟨key, fun v hv => ?_⟩
  rw [key] at hv
  injection hv with hv
  exact named_norm num txt g hg check s _ (nodup_set _ _ _ ho) v hv _ hf'

/-- **C105**, objects of order 0. A `Wavelet` that is a GMW of order 0 is used when its norm goes with `l1_norm` and refused with a ValueError when it does
not; the object itself is not changed. -/
theorem C105_object_partial (num : PyS → Option ℚ) (txt : PyS) (g : GDict) (hg : getGdefaults num txt = .ok g)
    (check : PyS → PyDict CfgV → Py Unit) (name : PyS) (opts : PyDict CfgV) (ho : opts.keys.Nodup) (dtype : DtypeArg) (v : WvObj)
    (hv : waveletInit g check (.tuple [.str name, .dict opts]) dtype = .ok v) (hname : pyLower name = "gmw".toList)
    (h0 : v.config.find "order".toList = some (.num 0)) (l0 l : Bool) (hn : v.config.find "norm".toList = some (Spec.normFor l0)) :
    cwtWavelet g check (.inst v) l = (if l0 = l then .ok v else .error .valueError, .inst v) := by
  obtain ⟨d, hd, h⟩ := (waveletInit_named g check name opts dtype v).mp hv
  obtain ⟨-, -, r, -, -, -, out, -, d', -, rfl⟩ := (wavNamed_iff g check name opts d v).mp h
  have hq : wavQual (pyLower name) r.1 = (if l0 then "gmw_l1".toList else "gmw_l2".toList) ++ ".<locals>.<lambda>".toList := by
    simp only at h0 hn
    unfold wavQual
    rw [if_pos hname, h0, hn]
    cases l0 <;> rfl
  unfold cwtWavelet processGmw
  simp only [WvObj.name]
  rw [hq]
  cases l0
  · have e : fnToName ((if false then "gmw_l1".toList else "gmw_l2".toList) ++ ".<locals>.<lambda>".toList) = "GMW L2".toList := by rfl
    simp only [Bool.false_eq_true, if_false] at e ⊢
    rw [e]
    cases l <;> rfl
  · have e : fnToName ((if true then "gmw_l1".toList else "gmw_l2".toList) ++ ".<locals>.<lambda>".toList) = "GMW L1".toList := by rfl
    simp only [if_true] at e ⊢
    rw [e]
    cases l <;> rfl

/-- **C105**, the argument. Names and objects are left as they are; of a tuple's options only the norm can change. -/
theorem C105_argument (g : GDict) (check : PyS → PyDict CfgV → Py Unit) (w : WavArg) (l : Bool) :
    ((∀ s o, w ≠ .tuple [.str s, .dict o]) → (cwtWavelet g check w l).2 = w) ∧
    (∀ s o, w = .tuple [.str s, .dict o] → ∃ o', (cwtWavelet g check w l).2 = .tuple [.str s, .dict o'] ∧
      ∀ k, k ≠ "norm".toList → o'.find k = o.find k) := by
  constructor
  · intro h
    unfold cwtWavelet processGmw
    simp only
    cases w with
    | str s => simp only; split_ifs <;> rfl
    | fn q out => rfl
    | other => rfl
    | inst v => simp only; split_ifs <;> rfl
    | tuple t =>
      rcases t with _ | ⟨a, t⟩
      · rfl
      · cases a with
        | dict d => rfl
        | other => rfl
        | str s =>
          simp only
          by_cases hg : (pyLower s).take 3 = "gmw".toList
          · rw [if_pos hg]
            rcases t with _ | ⟨b, _ | ⟨c, t⟩⟩
            · rfl
            · cases b with
              | dict o => exact absurd rfl (h s o)
              | str _ => rfl
              | other => rfl
            · split
              · rename_i h1; simp at h1
              · rfl
              · rfl
          · rw [if_neg hg]
  · rintro s o rfl
    unfold cwtWavelet processGmw
    simp only
    by_cases h : (pyLower s).take 3 = "gmw".toList
    · rw [if_pos h]
      refine ⟨_, rfl, fun k hk => ?_⟩
      rw [find_set, if_neg (Ne.symm hk)]
    · rw [if_neg h]
      exact ⟨o, rfl, fun _ _ => rfl⟩

example : cwtWavelets exG noCheck (.str "GMW".toList) [true, false] =
    [.ok { qual := "gmw_l1.<locals>.<lambda>".toList, dtype := "float32".toList, config := exGmwD },
     .ok { qual := "gmw_l2.<locals>.<lambda>".toList, dtype := "float64".toList,
           config := (exGmwD.set "norm".toList (.str "energy".toList)).set "dtype".toList (.str "float64".toList) }] := by rfl

/-! ## C106 -/

/-- A way of naming the supported floating-point type `n`: the string, numpy's class, numpy's dtype, torch's dtype. -/
inductive Spec.Names (n : PyS) : DtypeArg → Prop
  | str : Spec.Names n (.str n)
  | cls : Spec.Names n (.cls ("numpy.".toList ++ n))
  | npDtype : Spec.Names n (.npDtype n)
  | torch : Spec.Names n (.torchDtype n)

/-- **C106**, in full: a specification that works without `dtype` works with each way of naming float32 or float64, and the wavelet then has this dtype
(float64 with `norm='energy'`). -/
def C106_full : Prop :=
  ∀ (num : PyS → Option ℚ) (txt : PyS) (g : GDict), getGdefaults num txt = .ok g →
  ∀ (w : WavArg) (v : WvObj), waveletInit g noCheck w .none = .ok v →
  ∀ n ∈ ["float32".toList, "float64".toList], ∀ d, Spec.Names n d →
    ∃ v', waveletInit g noCheck w d = .ok v' ∧
      (v'.dtype = n ∨ v'.config.find "norm".toList = some (.str "energy".toList) ∧ v'.dtype = "float64".toList)

/-- `Wavelet('gmw', dtype=np.float64)` is an error: the class's text is `<class 'numpy.float64'>`, and `float64'>` is not a dtype. -/
theorem C106_refuted : ¬ C106_full := by
  intro h
  obtain ⟨v', hv', -⟩ := h exNum exIni exG exIni_ok (.str "gmw".toList) _ (show waveletInit exG noCheck (.str "gmw".toList) .none =
    .ok { qual := "gmw_l1.<locals>.<lambda>".toList, dtype := "float32".toList, config := exGmwD } from rfl) "float64".toList (by decide) _ .cls
  have e : waveletInit exG noCheck (.str "gmw".toList) (.cls ("numpy.".toList ++ "float64".toList)) = .error .valueError := by rfl
  rw [e] at hv'
  exact nomatch hv'

/-- The dtype of a custom function is the one it returns for float32 input: `Wavelet(fn, dtype='float64')` ignores its `dtype`. -/
theorem C106_function_refuted : ¬ C106_full := by
  intro h
  obtain ⟨v', hv', h1⟩ := h exNum exIni exG exIni_ok (.fn "f".toList "float32".toList) ⟨"f".toList, [], "float32".toList⟩ (by rfl) "float64".toList
    (by decide) _ .str
  have e : waveletInit exG noCheck (.fn "f".toList "float32".toList) (.str "float64".toList) = .ok ⟨"f".toList, [], "float32".toList⟩ := by rfl
  rw [e] at hv'
  injection hv' with hv'
  subst hv'
  revert h1
  decide

/-- **C106**, the other ways. For the built-in wavelets, the string, numpy's dtype and torch's dtype all work whenever the specification works without `dtype`
(if the checks of the values do not look at the dtype). -/
theorem C106_dtype_partial (num : PyS → Option ℚ) (txt : PyS) (g : GDict) (hg : getGdefaults num txt = .ok g)
    (check : PyS → PyDict CfgV → Py Unit) (hcheck : ∀ name o x, check name (PyDict.set o "dtype".toList x) = check name o)
    (name : PyS) (opts : PyDict CfgV) (ho : opts.keys.Nodup) (v : WvObj)
    (hv : waveletInit g check (.tuple [.str name, .dict opts]) .none = .ok v)
    (n : PyS) (hn : n ∈ ["float32".toList, "float64".toList]) (d : DtypeArg) (hd : d = .str n ∨ d = .npDtype n ∨ d = .torchDtype n) :
    ∃ v', waveletInit g check (.tuple [.str name, .dict opts]) d = .ok v' ∧
      v'.dtype = (if v.config.find "norm".toList = some (.str "energy".toList) then "float64".toList else n) ∧
      ∀ k, k ≠ "dtype".toList → v'.config.find k = v.config.find k := by
  have hp : processDtype d = .ok n := by
    simp only [List.mem_cons, List.not_mem_nil, or_false] at hn
    rcases hn with rfl | rfl <;> rcases hd with rfl | rfl | rfl <;> rfl
  obtain ⟨d0, hd0, h⟩ := (waveletInit_named g check name opts .none v).mp hv
  injection (show (.ok none : Py (Option PyS)) = .ok d0 from hd0) with hd0
  subst hd0
  obtain ⟨hres, hsup, r, hr, hkeys, hch, out, hout, d', hd', hveq⟩ := (wavNamed_iff g check name opts none v).mp h
  have hvopt := C104_options num txt g hg check name opts ho .none v hv
  have hdt : "dtype".toList ∈ wavParams (pyLower name) := by
    have hs := hsup
    simp only [wavSupported, List.mem_cons, List.not_mem_nil, or_false] at hs
    rcases hs with h | h | h | h | h <;> rw [h] <;> decide
  have hn64 : ∃ out, wavOutDtype (pyLower name) n = .ok out := by
    have hs := hsup
    simp only [wavSupported, List.mem_cons, List.not_mem_nil, or_false] at hs hn
    rcases hs with h | h | h | h | h <;> rcases hn with h' | h' <;> rw [h, h'] <;> exact ⟨_, rfl⟩
  rw [wavProcessDtype_eq] at hr
  have hnorm : v.config.find "norm".toList = (wavFilled g (pyLower name) opts).find "norm".toList := by
    rw [hvopt.2.2.1 _ (by decide), (wavFilled_spec num txt g hg _ opts ho).1]
  suffices hex : ∃ v', waveletInit g check (.tuple [.str name, .dict opts]) d = .ok v' by
    obtain ⟨v', hv'⟩ := hex
    refine ⟨v', hv', ?_, fun k hk => ?_⟩
    · obtain ⟨-, -, -, h1, h2⟩ := C104_options num txt g hg check name opts ho d v' hv'
      rw [hnorm, (wavFilled_spec num txt g hg _ opts ho).1]
      split_ifs with hE
      · exact (h1 hE).2
      · exact ((h2 hE).2 n hp).2
    · rw [hvopt.2.2.1 k hk, (C104_options num txt g hg check name opts ho d v' hv').2.2.1 k hk]
  by_cases hE : (wavFilled g (pyLower name) opts).find "norm".toList = some (.str "energy".toList)
  · rw [if_pos hE] at hr
    exact wavelet_runs (initDtype_of hp) r hres hsup (by rw [wavProcessDtype_eq, if_pos hE, hr]) hkeys hch out hout d' hd'
  · rw [if_neg hE] at hr
    simp only at hr
    obtain ⟨out', hout'⟩ := hn64
    refine wavelet_runs (initDtype_of hp) ((wavFilled g (pyLower name) opts).set "dtype".toList (.str n), some n) hres hsup
      (by rw [wavProcessDtype_eq, if_neg hE]) ?_ ?_ out' ?_ n rfl
    · intro e he
      have : e.1 ∈ ((wavFilled g (pyLower name) opts).set "dtype".toList (.str n)).keys := List.mem_map_of_mem he
      rw [keys_set] at this
      have hold : ∀ k ∈ (wavFilled g (pyLower name) opts).keys, k ∈ wavParams (pyLower name) := by
        intro k hk
        obtain ⟨e', he', rfl⟩ := List.mem_map.mp hk
        exact hkeys e' (by rw [hr]; exact he')
      split_ifs at this
      · exact hold _ this
      · rw [List.mem_append] at this
        rcases this with h | h
        · exact hold _ h
        · rw [List.mem_singleton.mp h]; exact hdt
    · rw [hcheck]
      rw [hr] at hch
      exact hch
    · simp only
      rw [find_set, if_pos rfl]
      exact hout'

/-- **C106**, classes. With the built-in wavelets a class never works as `dtype`, whatever its name, unless `norm='energy'` overrides it. -/
theorem C106_class (num : PyS → Option ℚ) (txt : PyS) (g : GDict) (hg : getGdefaults num txt = .ok g)
    (check : PyS → PyDict CfgV → Py Unit) (name : PyS) (opts : PyDict CfgV) (ho : opts.keys.Nodup) (q : PyS)
    (hE : ¬ Spec.energy (Spec.wavSection g (pyLower name)) opts) :
    ∃ e, waveletInit g check (.tuple [.str name, .dict opts]) (.cls q) = .error e := by
  rcases hv : waveletInit g check (.tuple [.str name, .dict opts]) (.cls q) with e | v
  · exact ⟨e, rfl⟩
  exfalso
  obtain ⟨d, hd, h⟩ := (waveletInit_named g check name opts _ v).mp hv
  obtain ⟨-, hsup, r, hr, -, -, out, hout, d', hd', rfl⟩ := (wavNamed_iff g check name opts d v).mp h
  obtain ⟨-, -, -, -, h2⟩ := C104_options num txt g hg check name opts ho _ _ hv
  have hp : processDtype (.cls q) = .ok ((pySplit '.' (DtypeArg.text (.cls q))).getLast?.getD []) := rfl
  have hfd := ((h2 hE).2 _ hp).1
  simp only at hfd
  rw [hfd] at hout
  simp only at hout
  -- the text ends in `>`
  have hlast : ∀ s : PyS, ∃ t, (pySplit '.' (s ++ ['>'])).getLast?.getD [] = t ++ ['>'] := by
    intro s
    induction s with
    | nil => exact ⟨[], rfl⟩
    | cons a s ih =>
      obtain ⟨t, ht⟩ := ih
      rw [List.cons_append]
      unfold pySplit
      split_ifs with ha
      · refine ⟨t, ?_⟩
        rw [← ht, List.getLast?_cons]
        rcases hl : pySplit '.' (s ++ ['>']) with _ | ⟨f, fs⟩
        · exact absurd hl (pySplit_ne_nil _ _)
        · rw [List.getLast?_cons]; rfl
      · rcases hl : pySplit '.' (s ++ ['>']) with _ | ⟨f, fs⟩
        · exact absurd hl (pySplit_ne_nil _ _)
        · rw [hl] at ht
          cases fs with
          | nil =>
            refine ⟨a :: t, ?_⟩
            have : f = t ++ ['>'] := ht
            simp [this]
          | cons f' fs =>
            refine ⟨t, ?_⟩
            rw [← ht]
            simp [List.getLast?_cons]
  obtain ⟨t, ht⟩ := hlast ("<class '".toList ++ q ++ ['\''])
  have e : DtypeArg.text (.cls q) = "<class '".toList ++ q ++ ['\''] ++ ['>'] := by
    change "<class '".toList ++ q ++ "'>".toList = _
    rw [List.append_assoc _ ['\''] ['>']]; rfl
  rw [e, ht] at hout
  have hne : ∀ s : PyS, s.getLast? ≠ some '>' → t ++ ['>'] ≠ s := by
    intro s hs h
    rw [← h] at hs
    simp at hs
  have a32 := hne "float32".toList (by decide)
  have a64 := hne "float64".toList (by decide)
  have c64 := hne "complex64".toList (by decide)
  have c128 := hne "complex128".toList (by decide)
  have hm : t ++ ['>'] ∉ dtypesSupported := by
    intro h
    rcases List.mem_cons.mp h with h | h
    · exact a32 h
    · exact a64 (List.mem_singleton.mp h)
  have hb : wavOutDtype (pyLower name) (t ++ ['>']) = .error .valueError := by
    unfold wavOutDtype
    rw [if_neg a32, if_neg a64, if_neg (not_or.mpr ⟨c64, c128⟩), if_neg hm]
    exact ite_self _
  exact nomatch hb.symm.trans hout

example : ∃ e, waveletInit exG noCheck (.tuple [.str "gmw".toList, .dict []]) (.cls "numpy.float64".toList) = .error e :=
  C106_class exNum exIni exG exIni_ok noCheck "gmw".toList [] (by simp [PyDict.keys]) _ (by decide)

example : ∃ v', waveletInit exG noCheck (.tuple [.str "gmw".toList, .dict []]) (.npDtype "float64".toList) = .ok v' ∧ v'.dtype = "float64".toList := by
  obtain ⟨v', h1, h2, -⟩ := C106_dtype_partial exNum exIni exG exIni_ok noCheck (fun _ _ _ => rfl) "gmw".toList [] (by simp [PyDict.keys]) _
    (show waveletInit exG noCheck _ .none = .ok { qual := "gmw_l1.<locals>.<lambda>".toList, dtype := "float32".toList, config := exGmwD } from rfl)
    "float64".toList (by decide) (.npDtype "float64".toList) (Or.inr (Or.inl rfl))
  exact ⟨v', h1, h2⟩

/-! ## C107 -/

/-- **C107**, in full: `cwt` accepts exactly the wavelet names `Wavelet` accepts. -/
def C107_full : Prop :=
  ∀ (num : PyS → Option ℚ) (txt : PyS) (g : GDict) (check : PyS → PyDict CfgV → Py Unit), getGdefaults num txt = .ok g →
  ∀ (s : PyS) (l : Bool) (v : WvObj), (cwtWavelet g check (.str s) l).1 = .ok v →
    pyLower s ∈ ["gmw".toList, "morlet".toList, "bump".toList, "cmhat".toList, "hhhat".toList]

/-- `cwt(x, 'gmw2')` runs with the wavelet 'gmw'. -/
theorem C107_refuted : ¬ C107_full := by
  intro h
  have := h exNum exIni exG noCheck exIni_ok "gmw2".toList true
    { qual := "gmw_l1.<locals>.<lambda>".toList, dtype := "float32".toList, config := exGmwD } (by rfl)
  revert this
  decide

/-- **C107**, what holds. Names that do not begin with 'gmw' are treated as `Wavelet` treats them, and those that do all stand for 'gmw'. -/
theorem C107_names_partial (g : GDict) (check : PyS → PyDict CfgV → Py Unit) (s : PyS) (l : Bool) :
    ((pyLower s).take 3 ≠ "gmw".toList → (cwtWavelet g check (.str s) l).1 = waveletInit g check (.str s) .none) ∧
    ((pyLower s).take 3 = "gmw".toList → (cwtWavelet g check (.str s) l).1 = (cwtWavelet g check (.str "gmw".toList) l).1) := by
  unfold cwtWavelet processGmw
  simp only
  constructor
  · intro h; rw [if_neg h]; rfl
  · intro h; rw [if_pos h]; rfl

example : (cwtWavelet exG noCheck (.str "Gmw-typo".toList) true).1 = (cwtWavelet exG noCheck (.str "gmw".toList) true).1 :=
  (C107_names_partial exG noCheck _ _).2 (by decide)

end Ssq
