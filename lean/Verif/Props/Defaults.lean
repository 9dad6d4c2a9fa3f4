import Verif.Props.Configs

/-!
# Defaults (C59), switches (C60), the caller's module (C88)
-/
namespace Ssq

/-! ## C59 -/

/-- All three levels are dicts: keys are distinct. -/
def GWf (g : GDict) : Prop :=
  g.keys.Nodup ∧ ∀ m d, g.find m = some d → d.keys.Nodup ∧ ∀ o D, d.find o = some D → D.keys.Nodup

theorem cfgLine_wf (num : PyS → Option ℚ) (s s' : CfgSt) (l : PyS) (h : cfgLine num s l = .ok s') (hs : GWf s.g) :
    GWf s'.g := by
  unfold cfgLine at h
  split_ifs at h with h1 h2
  · cases h
    refine ⟨nodup_set _ _ _ hs.1, fun m d hd => ?_⟩
    simp only at hd
    rw [find_set] at hd
    split_ifs at hd
    · cases hd; exact ⟨List.nodup_nil, fun o D hD => by simp [PyDict.find] at hD⟩
    · exact hs.2 m d hd
  · rcases hm : s.g.find s.module with _ | m
    · rw [hm] at h; cases h
    · rw [hm] at h; cases h
      refine ⟨nodup_set _ _ _ hs.1, fun m' d hd => ?_⟩
      simp only at hd
      rw [find_set] at hd
      split_ifs at hd
      · cases hd
        refine ⟨nodup_set _ _ _ (hs.2 _ _ hm).1, fun o D hD => ?_⟩
        rw [find_set] at hD
        split_ifs at hD
        · cases hD; exact List.nodup_nil
        · exact (hs.2 _ _ hm).2 o D hD
      · exact hs.2 m' d hd
  · split at h
    · rcases hm : s.g.find s.module with _ | m
      · rw [hm] at h; cases h
      · rw [hm] at h
        simp only at h
        rcases ho : m.find s.obj with _ | o
        · rw [ho] at h; cases h
        · rw [ho] at h; cases h
          refine ⟨nodup_set _ _ _ hs.1, fun m' d hd => ?_⟩
          simp only at hd
          rw [find_set] at hd
          split_ifs at hd
          · cases hd
            refine ⟨nodup_set _ _ _ (hs.2 _ _ hm).1, fun o' D hD => ?_⟩
            rw [find_set] at hD
            split_ifs at hD
            · cases hD; exact nodup_set _ _ _ ((hs.2 _ _ hm).2 _ _ ho)
            · exact (hs.2 _ _ hm).2 o' D hD
          · exact hs.2 m' d hd
    · cases h

theorem cfgLines_wf (num : PyS → Option ℚ) (ls : List PyS) (s s' : CfgSt) (h : cfgLines num s ls = .ok s') (hs : GWf s.g) :
    GWf s'.g := by
  induction ls generalizing s with
  | nil => cases h; exact hs
  | cons l ls ih =>
    unfold cfgLines at h
    rcases hl : cfgLine num s l with e | s1
    · rw [hl] at h; cases h
    · rw [hl] at h; exact ih s1 h (cfgLine_wf num s s1 l hl hs)

theorem getGdefaults_wf (num : PyS → Option ℚ) (txt : PyS) (g : GDict) (h : getGdefaults num txt = .ok g) : GWf g := by
  unfold getGdefaults at h
  simp only at h
  split_ifs at h
  rcases hc : cfgLines num {} (((pySplit '\n' txt).takeWhile (· != "#### END".toList)).filter (· != []) |>.map (pyStrip ' ')) with e | s
  · rw [hc] at h; cases h
  · rw [hc] at h; cases h
    exact cfgLines_wf num _ _ _ hc ⟨List.nodup_nil, fun m d hd => by simp [PyDict.find] at hd⟩

/-- What the caller should get for a keyword: their own value unless it is None, then the configured one if there is one. -/
def Spec.filled (D kw : PyDict CfgV) (getAll : Bool) (k : PyS) : Option CfgV :=
  match kw.find k with
  | some .none => some ((D.find k).getD .none)
  | some v => some v
  | none => if getAll then D.find k else none

theorem gdFill_keys (D kw : PyDict CfgV) : (gdFill D kw).keys = kw.keys := by
  unfold gdFill PyDict.keys
  rw [List.map_map]
  refine List.map_congr_left fun e _ => ?_
  simp only [Function.comp_apply]
  split_ifs <;> rfl

theorem gdFill_find (D kw : PyDict CfgV) (k : PyS) :
    (gdFill D kw).find k = (kw.find k).map fun v => if v = .none then (D.find k).getD .none else v := by
  induction kw with
  | nil => rfl
  | cons e kw ih =>
    have : gdFill D (e :: kw) = (if e.2 = .none then (e.1, (D.find e.1).getD e.2) else e) :: gdFill D kw := rfl
    rw [this, find_cons, find_cons, ih]
    by_cases h0 : e.2 = .none
    · rw [if_pos h0]
      by_cases h : e.1 = k
      · rw [if_pos h, if_pos h, ← h]; simp [h0]
      · rw [if_neg h, if_neg h]
    · rw [if_neg h0]
      by_cases h : e.1 = k
      · rw [if_pos h, if_pos h]; simp [h0]
      · rw [if_neg h, if_neg h]

theorem gdAll_spec (D kw : PyDict CfgV) (hD : D.keys.Nodup) (hk : kw.keys.Nodup) :
    (∀ k, (gdAll D kw).find k = (kw.find k).or (D.find k)) ∧
    (gdAll D kw).keys = kw.keys ++ D.keys.filter (fun k => decide (k ∉ kw.keys)) := by
  unfold gdAll
  induction D generalizing kw with
  | nil => simp [PyDict.find, PyDict.keys]
  | cons e D ih =>
    have hn : e.1 ∉ PyDict.keys D ∧ (PyDict.keys D).Nodup := List.nodup_cons.1 hD
    rw [List.foldl_cons]
    have ek : PyDict.keys (e :: D) = e.1 :: PyDict.keys D := rfl
    by_cases h : kw.find e.1 = none
    · have hnk : e.1 ∉ kw.keys := (find_none_iff _ _).1 h
      rw [if_pos h]
      obtain ⟨i1, i2⟩ := ih (kw.set e.1 e.2) hn.2 (nodup_set _ _ _ hk)
      refine ⟨fun k => ?_, ?_⟩
      · rw [i1, find_set, find_cons]
        by_cases hk' : e.1 = k
        · rw [if_pos hk', if_pos hk', ← hk', h]; rfl
        · rw [if_neg hk', if_neg hk']
      · rw [i2, keys_set, if_neg hnk, ek, List.filter_cons, if_pos (by simpa using hnk), List.append_assoc]
        congr 1
        rw [List.cons_append, List.nil_append]
        congr 1
        refine List.filter_congr fun k hkD => ?_
        have : k ≠ e.1 := fun e1 => hn.1 (e1 ▸ hkD)
        simp [this]
    · have hnk : e.1 ∈ kw.keys := by by_contra hc; exact h ((find_none_iff _ _).2 hc)
      rw [if_neg h]
      obtain ⟨i1, i2⟩ := ih kw hn.2 hk
      refine ⟨fun k => ?_, ?_⟩
      · rw [i1, find_cons]
        by_cases hk' : e.1 = k
        · rw [if_pos hk']
          rcases hf : kw.find k with _ | v
          · rw [hk'] at h; exact absurd hf h
          · rfl
        · rw [if_neg hk']
      · rw [i2, ek, List.filter_cons, if_neg (by simpa using hnk)]

theorem foldl_set_find (l : PyDict CfgV) (d : PyDict CfgV) (hl : l.keys.Nodup) (k : PyS) :
    (l.foldl (fun o e => PyDict.set o e.1 e.2) d).find k = (l.find k).or (d.find k) := by
  induction l generalizing d with
  | nil => simp [PyDict.find]
  | cons e l ih =>
    have hn : e.1 ∉ PyDict.keys l ∧ (PyDict.keys l).Nodup := List.nodup_cons.1 hl
    rw [List.foldl_cons, ih _ hn.2, find_set, find_cons]
    by_cases h : e.1 = k
    · rw [if_pos h, if_pos h, (find_none_iff l k).2 (by rw [← h]; exact hn.1)]; rfl
    · rw [if_neg h, if_neg h]

theorem foldl_set_keys (l : PyDict CfgV) (d : PyDict CfgV) (hl : l.keys.Nodup) :
    (l.foldl (fun o e => PyDict.set o e.1 e.2) d).keys = d.keys ++ l.keys.filter (fun k => decide (k ∉ d.keys)) := by
  induction l generalizing d with
  | nil => simp [PyDict.keys]
  | cons e l ih =>
    have hn : e.1 ∉ PyDict.keys l ∧ (PyDict.keys l).Nodup := List.nodup_cons.1 hl
    have ek : PyDict.keys (e :: l) = e.1 :: PyDict.keys l := rfl
    rw [List.foldl_cons, ih _ hn.2, keys_set, ek, List.filter_cons]
    by_cases h : e.1 ∈ d.keys
    · rw [if_pos h, if_neg (by simpa using h)]
    · rw [if_neg h, if_pos (by simpa using h), List.append_assoc]
      congr 1
      rw [List.cons_append, List.nil_append]
      congr 1
      refine List.filter_congr fun k hkD => ?_
      have : k ≠ e.1 := fun e1 => hn.1 (e1 ▸ hkD)
      simp [this]

theorem ordered_keys (D kw d : PyDict CfgV) (hD : D.keys.Nodup) (hd : ∀ k ∈ D.keys, k ∉ d.keys) :
    (D.foldl (fun o e => if kw.find e.1 = none then o else PyDict.set o e.1 e.2) d).keys =
      d.keys ++ D.keys.filter (fun k => decide (k ∈ kw.keys)) := by
  induction D generalizing d with
  | nil => simp [PyDict.keys]
  | cons e D ih =>
    have hn : e.1 ∉ PyDict.keys D ∧ (PyDict.keys D).Nodup := List.nodup_cons.1 hD
    have ek : PyDict.keys (e :: D) = e.1 :: PyDict.keys D := rfl
    rw [List.foldl_cons, ek, List.filter_cons]
    have hed : e.1 ∉ d.keys := hd _ (by rw [ek]; exact List.mem_cons_self)
    by_cases h : kw.find e.1 = none
    · rw [if_pos h, if_neg (by simpa using (find_none_iff _ _).1 h)]
      exact ih d hn.2 fun k hk => hd k (by rw [ek]; exact List.mem_cons_of_mem _ hk)
    · have hin : e.1 ∈ kw.keys := by by_contra hc; exact h ((find_none_iff _ _).2 hc)
      rw [if_neg h, if_pos (by simpa using hin), ih _ hn.2, keys_set, if_neg hed]
      · simp
      · intro k hk
        rw [keys_set, if_neg hed, List.mem_append, not_or, List.mem_singleton]
        exact ⟨hd k (by rw [ek]; exact List.mem_cons_of_mem _ hk), fun e1 => hn.1 (e1 ▸ hk)⟩

theorem ordered_find_none (D kw d : PyDict CfgV) (k : PyS) (hk : kw.find k = none) (hd : d.find k = none) :
    (D.foldl (fun o e => if kw.find e.1 = none then o else PyDict.set o e.1 e.2) d).find k = none := by
  induction D generalizing d with
  | nil => exact hd
  | cons e D ih =>
    rw [List.foldl_cons]
    refine ih _ ?_
    split_ifs with h
    · exact hd
    · rw [find_set, if_neg, hd]
      rintro rfl; exact h hk

theorem gdOrder_spec (D kw : PyDict CfgV) (hD : D.keys.Nodup) (hk : kw.keys.Nodup) :
    (∀ k, (gdOrder D kw).find k = kw.find k) ∧
    (gdOrder D kw).keys = D.keys.filter (fun k => decide (k ∈ kw.keys)) ++ kw.keys.filter (fun k => decide (k ∉ D.keys)) := by
  unfold gdOrder
  constructor
  · intro k
    simp only
    rw [foldl_set_find _ _ hk]
    rcases h : kw.find k with _ | v
    · rw [ordered_find_none D kw [] k h rfl]; rfl
    · rfl
  · simp only
    have := ordered_keys D kw [] hD (fun k _ => by simp [PyDict.keys])
    rw [foldl_set_keys _ _ hk, this]
    have e0 : PyDict.keys ([] : PyDict CfgV) = [] := rfl
    rw [e0, List.nil_append]
    congr 1
    refine List.filter_congr fun k hkw => ?_
    simp [hkw]

/-- The values of a section of a configuration file. -/
def Spec.section? (g : GDict) (m o : PyS) : Option (PyDict CfgV) := (g.find m).bind fun d => d.find o

/-- **C59**. For every configuration text that can be read, every section, and every set of keywords:
a keyword the caller set is returned unchanged, one that is None gets the configured value if there is one, no keyword is lost,
`get_all` adds the section's other keys and nothing else, and a section that does not exist changes nothing. The order is that of
the call (then of the section), or with `default_order` that of the section (then of the call). -/
theorem C59_defaults (num : PyS → Option ℚ) (txt : PyS) (g : GDict) (hg : getGdefaults num txt = .ok g) (m o : PyS)
    (getAll ord : Bool) (kw : PyDict CfgV) (hkw : kw.keys.Nodup) :
    let r := gdKw g m o getAll ord kw
    (Spec.section? g m o = none → r = kw) ∧
    (∀ D, Spec.section? g m o = some D →
      (∀ k, r.find k = Spec.filled D kw getAll k) ∧
      (ord = false → r.keys = kw.keys ++ if getAll then D.keys.filter (fun k => decide (k ∉ kw.keys)) else []) ∧
      (ord = true → r.keys = (if getAll then D.keys else D.keys.filter (fun k => decide (k ∈ kw.keys))) ++
        kw.keys.filter (fun k => decide (k ∉ D.keys)))) := by
  have hwf := getGdefaults_wf num txt g hg
  intro r
  constructor
  · intro hs
    simp only [r, gdKw]
    unfold Spec.section? at hs
    rcases hm : g.find m with _ | d
    · rfl
    · rw [hm] at hs
      simp only [Option.bind_some] at hs
      simp only [hs]
  · intro D hs
    unfold Spec.section? at hs
    rcases hm : g.find m with _ | d
    · rw [hm] at hs; simp at hs
    rw [hm] at hs
    simp only [Option.bind_some] at hs
    have hD := (hwf.2 m d hm).2 o D hs
    have hk1 : (gdFill D kw).keys.Nodup := by rw [gdFill_keys]; exact hkw
    have hr : r = if ord then gdOrder D (if getAll then gdAll D (gdFill D kw) else gdFill D kw)
        else (if getAll then gdAll D (gdFill D kw) else gdFill D kw) := by
      simp only [r, gdKw, hm, hs]
    obtain ⟨a1, a2⟩ := gdAll_spec D (gdFill D kw) hD hk1
    have hk2 : (if getAll then gdAll D (gdFill D kw) else gdFill D kw : PyDict CfgV).keys.Nodup := by
      cases getAll with
      | false => exact hk1
      | true =>
        simp only [if_true]
        rw [a2, List.nodup_append]
        refine ⟨hk1, hD.filter _, ?_⟩
        rintro a ha b hb rfl
        rw [List.mem_filter] at hb
        simpa using of_decide_eq_true hb.2 ha
    obtain ⟨o1, o2⟩ := gdOrder_spec D _ hD hk2
    have hfind : ∀ k, (if getAll then gdAll D (gdFill D kw) else gdFill D kw : PyDict CfgV).find k = Spec.filled D kw getAll k := by
      intro k
      unfold Spec.filled
      cases getAll with
      | false =>
        simp only [Bool.false_eq_true, if_false]
        rw [gdFill_find]
        rcases h : kw.find k with _ | v
        · rfl
        · cases v <;> simp
      | true =>
        simp only [if_true]
        rw [a1, gdFill_find]
        rcases h : kw.find k with _ | v
        · simp
        · cases v <;> simp
    refine ⟨fun k => ?_, fun h => ?_, fun h => ?_⟩
    · rw [hr]
      cases ord with
      | false => exact hfind k
      | true => simp only [if_true]; rw [o1]; exact hfind k
    · rw [hr, h]
      simp only [Bool.false_eq_true, if_false]
      cases getAll with
      | false => simp [gdFill_keys]
      | true => simp only [if_true]; rw [a2, gdFill_keys]
    · rw [hr, h]
      simp only [if_true]
      rw [o2]
      cases getAll with
      | false => simp [gdFill_keys]
      | true =>
        simp only [if_true]
        rw [a2, gdFill_keys]
        congr 1
        · rw [List.filter_eq_self]
          intro k hk
          by_cases hkk : k ∈ kw.keys <;> simp [hkk, hk]
        · rw [List.filter_append]
          have : (D.keys.filter fun k => decide (k ∉ kw.keys)).filter (fun k => decide (k ∉ D.keys)) = [] := by
            rw [List.filter_eq_nil_iff]
            intro k hk
            rw [List.mem_filter] at hk
            simp [hk.1]
          rw [this, List.append_nil]

/-- The form of the result: a dict if asked for (by default, with `get_all`), otherwise the values, or the value if there is
just one. The section is found from `'module.object'`, where the module may itself hold dots. -/
theorem C59_returned (num : PyS → Option ℚ) (txt : PyS) (g : GDict) (hg : getGdefaults num txt = .ok g) (m o : PyS)
    (ho : '.' ∉ o) (getAll ord : Bool) (asDict : Option Bool) (kw : PyDict CfgV) :
    let r := gdKw g m o getAll ord kw
    ((asDict = some true ∨ asDict = none ∧ getAll = true) → gdefaults num txt (m ++ '.' :: o) getAll asDict ord kw = .ok (.dict r)) ∧
    ((asDict = some false ∨ asDict = none ∧ getAll = false) →
      (∀ k v, r = [(k, v)] → gdefaults num txt (m ++ '.' :: o) getAll asDict ord kw = .ok (.single v)) ∧
      (r.length ≠ 1 → gdefaults num txt (m ++ '.' :: o) getAll asDict ord kw = .ok (.values (r.map (·.2))))) := by
  intro r
  have e : gdefaults num txt (m ++ '.' :: o) getAll asDict ord kw = .ok (gdefaultsAt g m o getAll asDict ord kw) := by
    unfold gdefaults
    rw [hg, pySplit_dots m o ho]
  rw [e]
  have hb : gdefaultsAt g m o getAll asDict ord kw = if asDict.getD getAll then .dict r else match r with
      | [e] => .single e.2
      | r => .values (r.map (·.2)) := rfl
  rw [hb]
  constructor
  · rintro (rfl | ⟨rfl, rfl⟩) <;> rfl
  · intro h
    have h0 : asDict.getD getAll = false := by rcases h with rfl | ⟨rfl, rfl⟩ <;> rfl
    rw [h0]
    simp only [Bool.false_eq_true, if_false]
    constructor
    · intro k v hr; rw [hr]
    · intro hr
      rcases hrr : r with _ | ⟨a, _ | ⟨b, t⟩⟩
      · rfl
      · rw [hrr] at hr; exact absurd rfl hr
      · rfl

/-- `morlet(mu=1)`: `mu` is the caller's, `dtype` the configured one. -/
example : gdKw [("wavelets".toList, [("morlet".toList, [("mu".toList, .num (67 / 5)), ("dtype".toList, .str "float32".toList)])])]
    "wavelets".toList "morlet".toList false false [("mu".toList, .num 1), ("dtype".toList, .none)] =
    [("mu".toList, .num 1), ("dtype".toList, .str "float32".toList)] := by decide

/-! ## C60 -/

/-- **C60**, parallel: switched off exactly by `SSQ_PARALLEL='0'` or a configured value equal to 0 (`False` included); anything else,
also no entry at all, leaves it on. With `SSQ_PARALLEL='0'` the configuration is not read. -/
theorem C60_parallel (num : PyS → Option ℚ) (txt : PyS) (g : GDict) (hg : getGdefaults num txt = .ok g) (env : Option PyS) :
    ∃ b, isParallel num txt env = .ok b ∧
      (b = false ↔ env = some "0".toList ∨
        Spec.lookup g "configs".toList "IS_PARALLEL".toList "parallel".toList = some (.num 0) ∨
        Spec.lookup g "configs".toList "IS_PARALLEL".toList "parallel".toList = some (.bool false)) := by
  unfold isParallel
  by_cases he : env.getD "1".toList = "0".toList
  · rw [if_pos he]
    refine ⟨false, rfl, iff_of_true rfl (.inl ?_)⟩
    cases env with
    | none => exact absurd he (by decide)
    | some e => exact congrArg some he
  · rw [if_neg he]
    have hne : env ≠ some "0".toList := by rintro rfl; exact he rfl
    have hne' : env ≠ some ['0'] := hne
    have e1 : gdefaults num txt "configs.IS_PARALLEL".toList false none false [("parallel".toList, .none)] =
        .ok (gdefaultsAt g "configs".toList "IS_PARALLEL".toList false none false [("parallel".toList, .none)]) := by
      unfold gdefaults
      rw [hg]
      rfl
    have e2 : gdefaultsAt g "configs".toList "IS_PARALLEL".toList false none false [("parallel".toList, .none)] =
        .single ((Spec.lookup g "configs".toList "IS_PARALLEL".toList "parallel".toList).getD .none) := by
      unfold gdefaultsAt gdKw Spec.lookup
      rcases hm : g.find "configs".toList with _ | d
      · rfl
      · simp only [Option.bind_some]
        rcases ho : d.find "IS_PARALLEL".toList with _ | D
        · rfl
        · rfl
    rw [e1, e2]
    refine ⟨_, rfl, ?_⟩
    rcases hv : Spec.lookup g "configs".toList "IS_PARALLEL".toList "parallel".toList with _ | v
    · simp [CfgV.isZero, hne']
    · cases v with
      | none => simp [CfgV.isZero, hne']
      | str s => simp [CfgV.isZero, hne']
      | bool b => cases b <;> simp [CfgV.isZero, hne']
      | num x => simp [CfgV.isZero, hne']

/-- With `SSQ_PARALLEL='0'`, whatever the configuration, readable or not. -/
theorem C60_parallel_env (num : PyS → Option ℚ) (txt : PyS) : isParallel num txt (some "0".toList) = .ok false := rfl

/-- Setting `SSQ_PARALLEL` to anything else is the same as not setting it: it does not override the configuration. -/
theorem C60_parallel_other (num : PyS → Option ℚ) (txt : PyS) (e : PyS) (h : e ≠ "0".toList) :
    isParallel num txt (some e) = isParallel num txt none := by
  unfold isParallel
  rw [if_neg (by simpa using h), if_neg (by decide)]

/-- **C60**, GPU. -/
theorem C60_gpu (env : Option PyS) (libs : Bool) :
    (useGpu env libs = .ok true ↔ env = some "1".toList ∧ libs = true) ∧
    (useGpu env libs = .error .valueError ↔ env = some "1".toList ∧ libs = false) ∧
    (useGpu env libs = .ok false ↔ env ≠ some "1".toList) := by
  unfold useGpu
  have key : env.getD "0".toList = "1".toList ↔ env = some "1".toList := by
    cases env with
    | none => simp
    | some e => simp
  by_cases he : env = some "1".toList
  · rw [if_pos (key.2 he)]
    cases libs <;> simp [he]
  · rw [if_neg fun h => he (key.1 h)]
    have he' : env ≠ some ['1'] := he
    simp [he']

/-- A configuration that switches parallelism off. -/
example : isParallel (fun s => if s = "0".toList then some 0 else none)
    "## configs\n# IS_PARALLEL\nparallel=0\n#### END\n".toList (some "1".toList) = .ok false := by decide

/-! ## C88 -/

/-- C88 in full: the module is the name of the caller's file. -/
def C88_full : Prop := ∀ (dir name : PyS), '/' ∉ name → callerModule '/' (dir ++ '/' :: (name ++ ".py".toList)) = name

theorem pySplit_last (c : Char) (d t : PyS) (h : c ∉ t) :
    2 ≤ (pySplit c (d ++ c :: t)).length ∧ (pySplit c (d ++ c :: t)).getLast? = some t := by
  induction d with
  | nil => simp [pySplit, pySplit_none c t h]
  | cons a d ih =>
    rw [List.cons_append]
    unfold pySplit
    rcases hp : pySplit c (d ++ c :: t) with _ | ⟨f, _ | ⟨g, gs⟩⟩
    · exact absurd hp (pySplit_ne_nil _ _)
    · rw [hp] at ih; simp at ih
    · rw [hp] at ih
      split_ifs
      · refine ⟨by simp, ?_⟩
        rw [List.getLast?_cons_cons]; exact ih.2
      · refine ⟨by simp, ?_⟩
        have h2 := ih.2
        rw [List.getLast?_cons_cons] at h2 ⊢
        exact h2

theorem callerModule_eq (sep : Char) (dir name : PyS) (hn : sep ∉ name) (hs : sep ∉ ".py".toList) :
    callerModule sep (dir ++ sep :: (name ++ ".py".toList)) =
      (name.reverse.dropWhile (".py".toList.contains ·)).reverse := by
  have key := pySplit_last sep dir (name ++ ".py".toList) (by rw [List.mem_append, not_or]; exact ⟨hn, hs⟩)
  unfold callerModule pyRstripSet
  rw [key.2]
  simp only [Option.getD_some, List.reverse_append]
  have : ".py".toList.reverse = ['y', 'p', '.'] := rfl
  rw [this]
  simp [List.dropWhile_cons]

/-- `rstrip('.py')` removes any of the three characters, as often as they occur at the end. -/
theorem C88_refuted : ¬ C88_full := fun h => by
  have h1 := h [] "happy".toList (by decide)
  rw [callerModule_eq _ _ _ (by decide) (by decide)] at h1
  exact absurd h1 (by decide)

/-- **C88** for names that do not end in one of the characters `.`, `p`, `y`. -/
theorem C88_caller_partial (sep : Char) (dir name : PyS) (c : Char) (hn : sep ∉ name ++ [c]) (hs : sep ∉ ".py".toList)
    (hc : c ∉ ".py".toList) : callerModule sep (dir ++ sep :: (name ++ [c] ++ ".py".toList)) = name ++ [c] := by
  rw [callerModule_eq _ _ _ hn hs, List.reverse_append, List.reverse_singleton, List.singleton_append, List.dropWhile_cons,
    if_neg (by rw [List.contains_iff_mem]; exact hc)]
  simp

/-- The package's own modules. -/
example : callerModule '/' "/lib/ssqueezepy/wavelets.py".toList = "wavelets".toList :=
  C88_caller_partial '/' "/lib/ssqueezepy".toList "wavelet".toList 's' (by decide) (by decide) (by decide)

end Ssq
