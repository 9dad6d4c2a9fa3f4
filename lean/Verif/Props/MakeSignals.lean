import Verif.Model.MakeSignals
import Verif.Lemmas.Configs
import Verif.Props.CwtBatch

/-!
# Signals on request (C67, C90)
-/
namespace Ssq
namespace Spec

/-- The name under which a request is filed: a modulator alone modulates a cosine; a leading `#` (add the reversed signal) is kept. -/
def canonBody (s : PyS) : PyS :=
  if "am-".toList <+: s then "cosine:".toList ++ (s.reverse.dropWhile (· = ':')).reverse else s

def canon : PyS → PyS
  | [] => []
  | c :: s => if c = '#' then '#' :: canonBody s else canonBody (c :: s)

/-- The name in a request. -/
def reqName {V : Type} : SigArg V → PyS
  | .str s => s
  | .pair s _ => s
  | .pair2 s _ _ => s
  | .bad => []

end Spec

theorem pyIn_nil (sub : PyS) (h : sub ≠ []) : pyIn sub [] = false := by
  cases sub with
  | nil => exact absurd rfl h
  | cons a s => rfl

theorem pyIn_of_prefix (sub s : PyS) (h : sub.isPrefixOf s = true) (hs : s ≠ []) : pyIn sub s = true := by
  cases s with
  | nil => exact absurd rfl hs
  | cons c s => rw [pyIn, h, Bool.true_or]

section
variable {X V : Type} (G : SigGen X V) (da : PyDict (SigDef V)) (snr : Option V)

theorem sigBody_key (s : PyS) (fp ap : PyDict V) (p : PyS × PyDict V × PyDict V) (h : sigBody da s fp ap = .ok p) :
    p.1 = Spec.canonBody s := by
  unfold sigBody at h
  by_cases hin : pyIn "am-".toList s = true
  · rw [if_pos hin] at h
    obtain ⟨⟨n', f', a', d'⟩, h1, h⟩ := bind_ok h
    obtain ⟨⟨fd, ad⟩, h2, h⟩ := bind_ok h
    obtain ⟨ad', h3, h⟩ := bind_ok h
    simp only [pure_eq_ok, Except.ok.injEq] at h
    rw [← h]
    unfold Spec.canonBody
    by_cases hp : "am-".toList.isPrefixOf s = true
    · rw [if_pos hp] at h1
      rw [if_pos (List.isPrefixOf_iff_prefix.1 hp)]
      simp only [Except.ok.injEq, Prod.mk.injEq] at h1
      rw [← h1.1]
      rfl
    · rw [if_neg hp] at h1
      rw [if_neg fun hc => hp (List.isPrefixOf_iff_prefix.2 hc)]
      split at h1
      · simp only [Except.ok.injEq, Prod.mk.injEq] at h1; exact h1.1.symm
      · cases h1
  · rw [if_neg hin] at h
    obtain ⟨d, -, h⟩ := bind_ok h
    simp only [pure_eq_ok, Except.ok.injEq] at h
    rw [← h]
    unfold Spec.canonBody
    rw [if_neg]
    intro hc
    have hs : s ≠ [] := by
      rintro rfl
      have := hc.length_le
      simp at this
    exact hin (pyIn_of_prefix _ _ (List.isPrefixOf_iff_prefix.2 hc) hs)

theorem sigUnpack_name (a : SigArg V) : (sigUnpack a).1 = Spec.reqName a := by cases a <;> rfl

/-- The dict key is the canonical name. -/
theorem sigProcess_key (a : SigArg V) (p : PyS × PyDict V × PyDict V) (h : sigProcess da a = .ok p) :
    p.1 = Spec.canon (Spec.reqName a) := by
  rw [← sigUnpack_name]
  unfold sigProcess at h
  rcases hu : sigUnpack a with ⟨n, fp, ap⟩
  rw [hu] at h
  cases n with
  | nil => cases h
  | cons c s =>
    dsimp only at h ⊢
    unfold Spec.canon
    dsimp only
    by_cases hc : c = '#'
    · rw [if_pos (by simpa using hc)] at h
      rw [if_pos hc]
      cases hb : sigBody da s fp ap with
      | error e => rw [hb] at h; cases h
      | ok r =>
        rw [hb] at h
        simp only [Except.map, Except.ok.injEq] at h
        rw [← h, sigBody_key da s fp ap r hb]
    · rw [if_neg (by simpa using hc)] at h
      rw [if_neg hc]
      exact sigBody_key da _ fp ap p h

/-- One request, processed. -/
def SigAlone (a : SigArg V) (o : PyS × X × PyDict V × PyDict V) : Prop :=
  sigValidate a = .ok () ∧ ∃ p, sigProcess da a = .ok p ∧ o.1 = p.1 ∧ sigMake G snr p.1 p.2.1 p.2.2 = .ok o.2

theorem forall₂_comp {α β γ : Type} {R : α → β → Prop} {S : β → γ → Prop} {l : List α} {m : List β} {n : List γ}
    (h1 : List.Forall₂ R l m) (h2 : List.Forall₂ S m n) : List.Forall₂ (fun a c => ∃ b, R a b ∧ S b c) l n := by
  induction h1 generalizing n with
  | nil => cases h2; exact .nil
  | cons h _ ih =>
    cases h2 with
    | cons h' h2 => exact .cons ⟨_, h, h'⟩ (ih h2)

theorem forall₂_split {α β γ : Type} {R : α → β → Prop} {S : β → γ → Prop} {l : List α} {n : List γ}
    (h : List.Forall₂ (fun a c => ∃ b, R a b ∧ S b c) l n) : ∃ m, List.Forall₂ R l m ∧ List.Forall₂ S m n := by
  induction h with
  | nil => exact ⟨[], .nil, .nil⟩
  | cons h _ ih =>
    obtain ⟨b, h1, h2⟩ := h
    obtain ⟨m, h3, h4⟩ := ih
    exact ⟨b :: m, .cons h1 h3, .cons h2 h4⟩

theorem sigStep_ok (p : PyS × PyDict V × PyDict V) (o : PyS × X × PyDict V × PyDict V) :
    sigStep G snr p = .ok o ↔ o.1 = p.1 ∧ sigMake G snr p.1 p.2.1 p.2.2 = .ok o.2 := by
  unfold sigStep
  constructor
  · intro h
    obtain ⟨r, h1, h2⟩ := bind_ok h
    simp only [pure_eq_ok, Except.ok.injEq] at h2
    subst h2
    exact ⟨rfl, h1⟩
  · rintro ⟨h1, h2⟩
    rw [h2, ← h1]
    rfl

theorem makeSignals_ok (l : List (SigArg V)) (gp : Bool) (r : SigOut X V × List (PyDict V × PyDict V)) :
    makeSignals G da snr (.list l) gp = .ok r ↔
      ∃ outs, List.Forall₂ (SigAlone G da snr) l outs ∧ r = (sigPack outs gp, outs.map fun e => e.2.2) := by
  constructor
  · intro h
    unfold makeSignals at h
    obtain ⟨l', h0, h⟩ := bind_ok h
    unfold sigInput at h0
    obtain ⟨u, hv, h0⟩ := bind_ok h0
    simp only [pure_eq_ok, Except.ok.injEq] at h0
    subst h0
    obtain ⟨ps, hps, h⟩ := bind_ok h
    obtain ⟨outs, ho, h⟩ := bind_ok h
    rw [mapM_ok] at hps ho hv
    refine ⟨outs, ?_, ?_⟩
    · have h3 := forall₂_comp hps ho
      rw [List.forall₂_iff_get] at h3 hv ⊢
      refine ⟨h3.1, fun i hi hi' => ?_⟩
      obtain ⟨p, hp, hq⟩ := h3.2 i hi hi'
      exact ⟨hv.2 i hi (hv.1 ▸ hi), p, hp, (sigStep_ok G snr p _).1 hq⟩
    · simp only [pure_eq_ok, Except.ok.injEq] at h
      exact h.symm
  · rintro ⟨outs, h, rfl⟩
    unfold makeSignals sigInput
    have hv : l.mapM sigValidate = .ok (l.map fun _ => ()) := (mapM_ok _ _ _).2 (by
      rw [List.forall₂_map_right_iff, List.forall₂_same]
      intro a ha
      obtain ⟨i, hi, rfl⟩ := List.getElem_of_mem ha
      exact ((List.forall₂_iff_get.1 h).2 i hi (h.length_eq ▸ hi)).1)
    obtain ⟨ps, h1, h2⟩ := forall₂_split (R := fun a p => sigProcess da a = .ok p)
      (S := fun p (o : PyS × X × PyDict V × PyDict V) => o.1 = p.1 ∧ sigMake G snr p.1 p.2.1 p.2.2 = .ok o.2)
      (h.imp fun a o h => h.2)
    have h1' := (mapM_ok _ _ _).2 h1
    have h2' := (mapM_ok (sigStep G snr) ps outs).2 (h2.imp fun p o h => (sigStep_ok G snr p o).2 h)
    simp only [hv, h1', h2', bind, Except.bind, pure, Except.pure]

theorem foldl_set_nodup {α : Type} (l d : PyDict α) (h : (PyDict.keys (d ++ l)).Nodup) :
    l.foldl (fun d e => PyDict.set d e.1 e.2) d = d ++ l := by
  induction l generalizing d with
  | nil => simp
  | cons e l ih =>
    rw [List.foldl_cons, set_new, ih, List.append_assoc]
    · rfl
    · rw [List.append_assoc]; exact h
    · intro hk
      unfold PyDict.keys at h hk
      rw [List.map_append, List.nodup_append] at h
      exact h.2.2 _ hk _ (by simp) rfl

theorem keys_foldl_set {α : Type} (l d : PyDict α) (k : PyS) :
    k ∈ PyDict.keys (l.foldl (fun d e => PyDict.set d e.1 e.2) d) ↔ k ∈ PyDict.keys d ∨ k ∈ PyDict.keys l := by
  induction l generalizing d with
  | nil => simp [PyDict.keys]
  | cons e l ih =>
    rw [List.foldl_cons, ih, keys_set]
    have : PyDict.keys (e :: l) = e.1 :: PyDict.keys l := rfl
    rw [this, List.mem_cons]
    split_ifs with he
    · constructor
      · rintro (h | h); exacts [.inl h, .inr (.inr h)]
      · rintro (h | h | h); exacts [.inl h, .inl (h ▸ he), .inr h]
    · rw [List.mem_append, List.mem_singleton]; tauto

theorem nodup_foldl_set {α : Type} (l d : PyDict α) (h : (PyDict.keys d).Nodup) :
    (PyDict.keys (l.foldl (fun d e => PyDict.set d e.1 e.2) d)).Nodup := by
  induction l generalizing d with
  | nil => exact h
  | cons e l ih => exact ih _ (nodup_set _ _ _ h)

theorem sigAlone_keys {l : List (SigArg V)} {outs : List (PyS × X × PyDict V × PyDict V)}
    (h : List.Forall₂ (SigAlone G da snr) l outs) : PyDict.keys outs = l.map fun a => Spec.canon (Spec.reqName a) := by
  induction h with
  | nil => rfl
  | cons h _ ih =>
    obtain ⟨-, p, hp, h1, -⟩ := h
    have e := sigProcess_key da _ _ hp
    rw [List.map_cons, ← ih, ← e, ← h1]
    rfl

end

namespace Spec

/-- `xs` are the signals of the requests `l`, in order: each is what asking for that one alone returns. -/
def EachAlone {X V : Type} (G : SigGen X V) (da : PyDict (SigDef V)) (snr : Option V) (l : List (SigArg V)) (xs : List X) : Prop :=
  xs.length = l.length ∧
    ∀ (i : ℕ) (h : i < l.length) (h' : i < xs.length),
      ∃ after, makeSignals G da snr (.list [l[i]]) false = .ok (.one xs[i], after)

end Spec

/-- **C67, as claimed**: asking for several signals returns as many, in order. -/
def C67_full : Prop :=
  ∀ (X V : Type) (G : SigGen X V) (da : PyDict (SigDef V)) (snr : Option V) (l : List (SigArg V)) (out : SigOut X V)
    (after : List (PyDict V × PyDict V)), 2 ≤ l.length → makeSignals G da snr (.list l) false = .ok (out, after) →
      ∃ xs, out = .many xs ∧ Spec.EachAlone G da snr l xs

/-- Generators that return the frequency parameter, for the examples. -/
def sigGenEx : SigGen (Option ℕ) ℕ where
  gen := fun _ _ fp _ => .ok (fp.find "f".toList)
  measured := fun v => if v = 0 then none else some (v + 1)

/-- **C67 is false of the code**: two sines of different frequencies come back as one bare signal, the second. -/
theorem C67_refuted : ¬ C67_full := by
  intro h
  have e : makeSignals sigGenEx [] none (.list [.pair "sine".toList [("f".toList, 4)], .pair "sine".toList [("f".toList, 8)]]) false =
      .ok (.one (some 8), [([("f".toList, 4)], []), ([("f".toList, 8)], [])]) := by rfl
  obtain ⟨xs, h1, -⟩ := h _ _ _ _ _ _ _ _ (by simp) e
  cases h1

/-- **C67, single**: one request returns the bare signal. -/
theorem C67_single {X V : Type} (G : SigGen X V) (da : PyDict (SigDef V)) (snr : Option V) (a : SigArg V) (out : SigOut X V)
    (after : List (PyDict V × PyDict V)) (h : makeSignals G da snr (.list [a]) false = .ok (out, after)) : ∃ x, out = .one x := by
  obtain ⟨outs, h1, h2⟩ := (makeSignals_ok G da snr _ _ _).1 h
  cases h1 with
  | cons h1 h3 =>
    cases h3
    rw [Prod.mk.injEq] at h2
    exact ⟨_, h2.1⟩

/-- **C67, partial**: requests under different canonical names come back one each, in order; missing: repeated names (and `am-…` beside
`cosine:am-…`). -/
theorem C67_distinct_partial {X V : Type} (G : SigGen X V) (da : PyDict (SigDef V)) (snr : Option V) (l : List (SigArg V))
    (out : SigOut X V) (after : List (PyDict V × PyDict V)) (hl : 2 ≤ l.length)
    (hd : (l.map fun a => Spec.canon (Spec.reqName a)).Nodup)
    (h : makeSignals G da snr (.list l) false = .ok (out, after)) :
    ∃ xs, out = .many xs ∧ Spec.EachAlone G da snr l xs := by
  obtain ⟨outs, h1, h2⟩ := (makeSignals_ok G da snr _ _ _).1 h
  have hk := sigAlone_keys G da snr h1
  have hlen := h1.length_eq
  have hdata : outs.foldl (fun d e => PyDict.set d e.1 e.2) [] = outs := by
    have := foldl_set_nodup outs [] (by rw [List.nil_append, hk]; exact hd)
    rwa [List.nil_append] at this
  rw [Prod.mk.injEq] at h2
  refine ⟨outs.map fun e => e.2.1, ?_, by rw [List.length_map, hlen], ?_⟩
  · rw [h2.1]
    unfold sigPack
    dsimp only
    rw [hdata, if_neg (by simp)]
    split
    · rename_i x hx
      have := congrArg List.length hx
      rw [List.length_map, List.length_singleton] at this
      omega
    · rfl
  · intro i hi hi'
    rw [List.length_map] at hi'
    have hi2 := (List.forall₂_iff_get.1 h1).2 i hi hi'
    refine ⟨[(outs[i]).2.2], (makeSignals_ok G da snr _ _ _).2 ⟨[outs[i]], .cons hi2 .nil, ?_⟩⟩
    rw [List.getElem_map]
    rfl

/-- **C67, counts**: in general there is one entry per distinct canonical name. -/
theorem C67_count {X V : Type} (G : SigGen X V) (da : PyDict (SigDef V)) (snr : Option V) (l : List (SigArg V))
    (out : SigOut X V) (after : List (PyDict V × PyDict V))
    (h : makeSignals G da snr (.list l) true = .ok (out, after)) :
    ∃ d, out = .dict d ∧ (d.map (·.1)).Nodup ∧ ∀ k, k ∈ d.map (·.1) ↔ ∃ a ∈ l, Spec.canon (Spec.reqName a) = k := by
  obtain ⟨outs, h1, h2⟩ := (makeSignals_ok G da snr _ _ _).1 h
  have hk := sigAlone_keys G da snr h1
  rw [Prod.mk.injEq] at h2
  refine ⟨_, h2.1, nodup_foldl_set outs [] (by simp [PyDict.keys]), fun k => ?_⟩
  have := keys_foldl_set outs [] k
  rw [hk, List.mem_map] at this
  exact this.trans (by simp [PyDict.keys])

/-- **C67, total**: if every request alone is served, so is the list. -/
theorem C67_served {X V : Type} (G : SigGen X V) (da : PyDict (SigDef V)) (snr : Option V) (l : List (SigArg V)) (gp : Bool)
    (h : ∀ a ∈ l, ∃ r, makeSignals G da snr (.list [a]) false = .ok r) : ∃ r, makeSignals G da snr (.list l) gp = .ok r := by
  have : ∃ outs, List.Forall₂ (SigAlone G da snr) l outs := by
    induction l with
    | nil => exact ⟨[], .nil⟩
    | cons a l ih =>
      obtain ⟨os, h2⟩ := ih fun b hb => h b (List.mem_cons_of_mem _ hb)
      obtain ⟨r, hr⟩ := h a List.mem_cons_self
      obtain ⟨o1, h1, -⟩ := (makeSignals_ok G da snr _ _ _).1 hr
      cases h1 with
      | cons h1 _ => exact ⟨_, .cons h1 h2⟩
  obtain ⟨outs, ho⟩ := this
  exact ⟨_, (makeSignals_ok G da snr _ _ _).2 ⟨outs, ho, rfl⟩⟩

/-- **C67, unsupported**: a string that is not a supported name, with or without `#`, raises `ValueError`; a request of another shape raises
`TypeError`. -/
theorem C67_rejects {X V : Type} (G : SigGen X V) (da : PyDict (SigDef V)) (snr : Option V) (gp : Bool) :
    (∀ s : PyS, s ≠ [] → ':' ∉ s → s.head? ≠ some '#' → s ∉ sigSupported →
      makeSignals G da snr (.list [.str s]) gp = .error .valueError ∧
      makeSignals G da snr (.list [.str ('#' :: s)]) gp = .error .valueError) ∧
    makeSignals G da snr (.list [.bad]) gp = .error .typeError ∧ makeSignals G da snr .other gp = .error .typeError := by
  refine ⟨fun s hs hc hh hns => ?_, rfl, rfl⟩
  have hv : sigValidate (.str s : SigArg V) = .error .valueError := by
    unfold sigValidate
    simp only [if_neg hc, bind, Except.bind, pyLstrip_core '#' s hh]
    rw [if_pos ⟨hs, hns⟩]
  have hv' : sigValidate (.str ('#' :: s) : SigArg V) = .error .valueError := by
    have hc' : ':' ∉ '#' :: s := by rw [List.mem_cons, not_or]; exact ⟨by decide, hc⟩
    have : pyLstrip '#' ('#' :: s) = s := by
      rw [show '#' :: s = List.replicate 1 '#' ++ s from rfl, pyLstrip_spaces, pyLstrip_core '#' s hh]
    unfold sigValidate
    simp only [if_neg hc', bind, Except.bind, this]
    rw [if_pos ⟨hs, hns⟩]
  constructor
  · simp only [makeSignals, sigInput, List.mapM_cons, hv, bind, Except.bind]
  · simp only [makeSignals, sigInput, List.mapM_cons, hv', bind, Except.bind]

/-- **C67, demo**: the demo list has no two requests under one canonical name. -/
theorem C67_demo : ((sigDemo.map (SigArg.str (V := ℕ))).map fun a => Spec.canon (Spec.reqName a)).Nodup := by decide

/-- **C67, all**: `'all'` is the demo list, so every demo signal comes back, in order. -/
theorem C67_all {X V : Type} (G : SigGen X V) (da : PyDict (SigDef V)) (snr : Option V) (out : SigOut X V)
    (after : List (PyDict V × PyDict V)) (h : makeSignals G da snr .all false = .ok (out, after)) :
    ∃ xs, out = .many xs ∧ Spec.EachAlone G da snr (sigDemo.map SigArg.str) xs := by
  have e : makeSignals G da snr .all false = makeSignals G da snr (.list (sigDemo.map SigArg.str)) false := by
    unfold makeSignals
    have : sigInput (.list (sigDemo.map SigArg.str) : SigReq V) = sigInput .all := by rfl
    rw [this]
  rw [e] at h
  exact C67_distinct_partial G da snr _ out after (by rw [List.length_map]; decide)
    (by rw [List.map_map]; exact (by decide : (sigDemo.map fun s => Spec.canon s).Nodup)) h

/-! ## Parameters -/

theorem find_erase {α : Type} (d : PyDict α) (k k' : PyS) :
    (PyDict.erase d k).find k' = if k = k' then none else d.find k' := by
  induction d with
  | nil => split_ifs <;> rfl
  | cons e d ih =>
    unfold PyDict.erase at ih ⊢
    rw [List.filter_cons]
    by_cases h : e.1 = k
    · rw [if_neg (by simp [h]), ih, find_cons]
      by_cases h' : k = k'
      · rw [if_pos h', if_pos h']
      · rw [if_neg h', if_neg h', if_neg (by rw [h]; exact h')]
    · rw [if_pos (by simp [h]), find_cons, ih, find_cons]
      by_cases h1 : e.1 = k'
      · rw [if_pos h1, if_pos h1, if_neg (by rw [← h1]; exact Ne.symm h)]
      · rw [if_neg h1, if_neg h1]

theorem find_merge {V : Type} (p d : PyDict V) (k : PyS) : (mergeDefaults p d).find k = (p.find k).or (d.find k) := by
  unfold mergeDefaults
  induction d generalizing p with
  | nil => simp [PyDict.find]
  | cons e d ih =>
    rw [List.foldl_cons, ih, find_set, find_cons]
    by_cases h : e.1 = k
    · rw [if_pos h, if_pos h, h]
      cases p.find k <;> rfl
    · rw [if_neg h, if_neg h]

theorem set_self {α : Type} (d : PyDict α) (k : PyS) (v : α) (h : d.find k = some v) : d.set k v = d := by
  induction d with
  | nil => cases h
  | cons e d ih =>
    rw [find_cons] at h
    unfold PyDict.set
    by_cases h1 : e.1 = k
    · rw [if_pos h1] at h
      rw [if_pos (by simpa using h1), ← h1, ← Option.some.inj h]
    · rw [if_neg h1] at h
      rw [if_neg (by simpa using h1), ih h]

theorem merge_full {V : Type} (p d : PyDict V) (h : ∀ e ∈ d, p.find e.1 ≠ none) : mergeDefaults p d = p := by
  unfold mergeDefaults
  induction d with
  | nil => rfl
  | cons e d ih =>
    rw [List.foldl_cons]
    have := h e List.mem_cons_self
    rw [set_self p e.1 _ (by
      cases hp : p.find e.1 with
      | none => exact absurd hp this
      | some v => rfl)]
    exact ih fun e he => h e (List.mem_cons_of_mem _ he)

theorem merge_idem {V : Type} (p d : PyDict V) : mergeDefaults (mergeDefaults p d) d = mergeDefaults p d := by
  apply merge_full
  intro e he hn
  rw [find_merge] at hn
  have : d.find e.1 ≠ none := fun h => (find_none_iff d e.1).1 h (List.mem_map_of_mem (f := (·.1)) he)
  cases hp : p.find e.1 <;> cases hd : d.find e.1 <;> simp_all

namespace Spec

/-- Which default dicts apply: those of the combined name if they are set (the modulator's own name for an empty modulator part), else those
of the carrier's and the modulator's own names. A lone modulator modulates a cosine. `none`: no modulator in the name. -/
inductive DefaultsFor {V : Type} (da : PyDict (SigDef V)) : PyS → PyDict V → PyDict V → Prop
  | plain (s : PyS) (d : PyDict V) : pyIn "am-".toList s = false → da.find s = some (.one d) → DefaultsFor da s d []
  | plainNone (s : PyS) : pyIn "am-".toList s = false → da.find s = none → DefaultsFor da s [] []
  | both (f a : PyS) (fd ad : PyDict V) : ':' ∉ f → ':' ∉ a → "am-".toList <+: a → ¬ "am-".toList <+: f ++ ':' :: a →
      da.find (f ++ ':' :: a) = some (.two fd ad) → ad ≠ [] → DefaultsFor da (f ++ ':' :: a) fd ad
  | separate (f a : PyS) (fd ad : PyDict V) : ':' ∉ f → ':' ∉ a → "am-".toList <+: a → ¬ "am-".toList <+: f ++ ':' :: a →
      da.find (f ++ ':' :: a) = none → da.find f = some (.one fd) → da.find a = some (.one ad) →
      DefaultsFor da (f ++ ':' :: a) fd ad
  | lone (a : PyS) (fd ad : PyDict V) : ':' ∉ a → "am-".toList <+: a →
      da.find "cosine".toList = some (.one fd) → da.find a = some (.one ad) → DefaultsFor da a fd ad

end Spec

theorem pyIn_append (sub s t : PyS) (h : sub <+: t) (ht : t ≠ []) : pyIn sub (s ++ t) = true := by
  induction s with
  | nil => exact pyIn_of_prefix _ _ (List.isPrefixOf_iff_prefix.2 h) ht
  | cons c s ih => rw [List.cons_append, pyIn, ih, Bool.or_true]

theorem rstrip_id (a : PyS) (h : ':' ∉ a) : (a.reverse.dropWhile (· == ':')).reverse = a := by
  have : a.reverse.dropWhile (· == ':') = a.reverse := by
    cases hr : a.reverse with
    | nil => rfl
    | cons c l =>
      rw [List.dropWhile_cons_of_neg]
      have : c ∈ a := by rw [← List.mem_reverse, hr]; exact List.mem_cons_self
      simp only [beq_iff_eq]
      rintro rfl
      exact h this
  rw [this, List.reverse_reverse]

/-- The parameters a request is processed with are those given, completed by the defaults that apply. -/
theorem sigBody_params {V : Type} (da : PyDict (SigDef V)) (s : PyS) (fp ap fd ad : PyDict V) (hs : s ≠ [])
    (hd : Spec.DefaultsFor da s fd ad) :
    ∃ name, sigBody da s fp ap = .ok (name, mergeDefaults fp fd, mergeDefaults ap ad) := by
  unfold sigBody
  cases hd with
  | plain _ _ h1 h2 =>
    refine ⟨s, ?_⟩
    rw [if_neg (by rw [h1]; simp), sigGet, h2]
    rfl
  | plainNone _ h1 h2 =>
    refine ⟨s, ?_⟩
    rw [if_neg (by rw [h1]; simp), sigGet, h2]
    rfl
  | both f a _ _ h1 h2 h3 h4 h5 h6 =>
    refine ⟨f ++ ':' :: a, ?_⟩
    have hin : pyIn "am-".toList (f ++ ':' :: a) = true := by
      rw [show f ++ ':' :: a = (f ++ [':']) ++ a by simp]
      exact pyIn_append _ _ _ h3 (by rintro rfl; simpa using h3.length_le)
    rw [if_pos hin, if_neg fun h => h4 (List.isPrefixOf_iff_prefix.1 h), pySplit_append ':' f a h1, pySplit_none ':' a h2, h5]
    have : ad.isEmpty = false := by simpa using h6
    simp only [bind, Except.bind, pure, Except.pure, this, Bool.false_eq_true, if_false]
  | separate f a _ _ h1 h2 h3 h4 h5 h6 h7 =>
    refine ⟨f ++ ':' :: a, ?_⟩
    have hin : pyIn "am-".toList (f ++ ':' :: a) = true := by
      rw [show f ++ ':' :: a = (f ++ [':']) ++ a by simp]
      exact pyIn_append _ _ _ h3 (by rintro rfl; simpa using h3.length_le)
    rw [if_pos hin, if_neg fun h => h4 (List.isPrefixOf_iff_prefix.1 h), pySplit_append ':' f a h1, pySplit_none ':' a h2, h5]
    simp only [bind, Except.bind, pure, Except.pure, sigGet, h6, h7, List.isEmpty_nil, if_true]
  | lone _ _ _ h1 h2 h3 h4 =>
    refine ⟨"cosine:".toList ++ s, ?_⟩
    rw [if_pos (pyIn_of_prefix _ _ (List.isPrefixOf_iff_prefix.2 h2) hs), if_pos (List.isPrefixOf_iff_prefix.2 h2), rstrip_id s h1]
    cases ad with
    | nil => simp only [bind, Except.bind, pure, Except.pure, sigGet, h3, h4, List.isEmpty_nil, if_true]
    | cons e ad =>
      simp only [bind, Except.bind, pure, Except.pure, sigGet, h3, h4, List.isEmpty_cons, Bool.false_eq_true, if_false]

theorem sigProcess_params {V : Type} (da : PyDict (SigDef V)) (s : PyS) (fp ap fd ad : PyDict V) (hs : s ≠ [])
    (hh : s.head? ≠ some '#') (hd : Spec.DefaultsFor da s fd ad) (rev : Bool) :
    ∃ name, sigProcess da (.pair2 (if rev then '#' :: s else s) fp ap) = .ok (name, mergeDefaults fp fd, mergeDefaults ap ad) := by
  obtain ⟨name, hn⟩ := sigBody_params da s fp ap fd ad hs hd
  cases rev with
  | true =>
    refine ⟨'#' :: name, ?_⟩
    simp only [sigProcess, sigUnpack, if_true, beq_self_eq_true, hn, Except.map]
  | false =>
    refine ⟨name, ?_⟩
    cases s with
    | nil => exact absurd rfl hs
    | cons c t =>
      have hc : (c == '#') = false := by simpa using hh
      simp only [sigProcess, sigUnpack, Bool.false_eq_true, if_false, hc, hn]

/-- The generated signal, of one request. -/
theorem makeSignals_one {X V : Type} (G : SigGen X V) (da : PyDict (SigDef V)) (snr : Option V) (s : PyS) (fp ap fp' ap' : PyDict V)
    (name : PyS) (h : sigProcess da (.pair2 s fp ap) = .ok (name, fp', ap')) (gp : Bool) :
    makeSignals G da snr (.list [.pair2 s fp ap]) gp =
      (sigStep G snr (name, fp', ap')).map fun o => (sigPack [o] gp, [o.2.2]) := by
  simp only [makeSignals, sigInput, List.mapM_cons, List.mapM_nil, sigValidate, h, bind, Except.bind, pure, Except.pure]
  cases sigStep G snr (name, fp', ap') <;> rfl

/-- **C90**: a parameter given with the request reaches the generator as given; one left out reaches it with its default, if there is one —
that of the combined name where it is set, else that of the carrier or modulator alone (`snr` is not the generator's). -/
theorem C90_parameters {X V : Type} (G : SigGen X V) (da : PyDict (SigDef V)) (snr : Option V) (s : PyS) (fp ap fd ad : PyDict V)
    (hs : s ≠ []) (hh : s.head? ≠ some '#') (hd : Spec.DefaultsFor da s fd ad) (rev : Bool) :
    ∃ noise f a,
      (makeSignals G da snr (.list [.pair2 (if rev then '#' :: s else s) fp ap]) false).map (·.1) =
        (G.gen (Spec.canon (if rev then '#' :: s else s)) noise f a).map SigOut.one ∧
      (∀ k, k ≠ "snr".toList → f.find k = (fp.find k).or (fd.find k)) ∧ f.find "snr".toList = none ∧
      (∀ k, a.find k = (ap.find k).or (ad.find k)) ∧
      noise = ((fp.find "snr".toList).or (fd.find "snr".toList)).or snr := by
  obtain ⟨name, hn⟩ := sigProcess_params da s fp ap fd ad hs hh hd rev
  have hname : name = Spec.canon (if rev then '#' :: s else s) := sigProcess_key da _ _ hn
  refine ⟨(match (mergeDefaults fp fd).find "snr".toList with
    | some v => some v
    | none => snr), PyDict.erase (mergeDefaults fp fd) "snr".toList, mergeDefaults ap ad, ?_, ?_, ?_, find_merge ap ad, ?_⟩
  · rw [makeSignals_one G da snr _ fp ap _ _ name hn false, ← hname]
    unfold sigStep sigMake
    simp only [bind, Except.bind, pure, Except.pure]
    cases G.gen name _ _ _ <;> rfl
  · intro k hk
    rw [find_erase, if_neg (Ne.symm hk), find_merge]
  · rw [find_erase, if_pos rfl]
  · rw [find_merge]
    cases (fp.find "snr".toList).or (fd.find "snr".toList) <;> rfl

/-- Non-vacuity: the built-in default of `sine:am-cosine`, in thousandths. -/
example : Spec.DefaultsFor [("sine:am-cosine".toList, SigDef.two [("f".toList, 16000)] [("amin".toList, 500)])]
    "sine:am-cosine".toList [("f".toList, 16000)] [("amin".toList, 500)] :=
  .both "sine".toList "am-cosine".toList _ _ (by decide) (by decide) (by decide) (by decide) rfl (by simp)

/-! ## Repeating a request -/

/-- **C91, as claimed**: making signals leaves the parameters it was given as they were, so that the same request made again gives the same. -/
def C91_full : Prop :=
  ∀ (X V : Type) (G : SigGen X V) (da : PyDict (SigDef V)) (snr : Option V) (s : PyS) (fp ap fp' ap' : PyDict V) (out : SigOut X V),
    makeSignals G da snr (.list [.pair2 s fp ap]) false = .ok (out, [(fp', ap')]) →
      ∃ after, makeSignals G da snr (.list [.pair2 s fp' ap']) false = .ok (out, after)

/-- Generators that return the requested SNR, for the refutation. -/
def sigGenSnr : SigGen (Option ℕ) ℕ where
  gen := fun _ snr _ _ => .ok snr
  measured := fun v => if v = 0 then none else some (v + 1)

/-- **C91 is false of the code**: the caller's `snr` is replaced by the one measured, which the next call aims at. -/
theorem C91_refuted : ¬ C91_full := by
  intro h
  have e : makeSignals sigGenSnr [] none (.list [.pair2 "sine".toList [("snr".toList, 10)] []]) false =
      .ok (.one (some 10), [([("snr".toList, 11)], [])]) := by rfl
  obtain ⟨after, h1⟩ := h _ _ _ _ _ _ _ _ _ _ _ e
  have e2 : makeSignals sigGenSnr [] none (.list [.pair2 "sine".toList [("snr".toList, 11)] []]) false =
      .ok (.one (some 11), [([("snr".toList, 12)], [])]) := by rfl
  rw [e2] at h1
  simp at h1

/-- The caller's dictionaries are changed even without noise: the defaults are written into them. -/
theorem C91_filled : makeSignals sigGenEx [("sine".toList, .one [("f".toList, 64)])] none (.list [.pair2 "sine".toList [] []]) false =
    .ok (.one (some 64), [([("f".toList, 64)], [])]) := by rfl

/-- **C91, partial**: without noise (no `snr` given, in the defaults or on the instance) the request made again with the dictionaries as the
first call left them gives the same. Missing: requests with noise. -/
theorem C91_repeat_partial {X V : Type} (G : SigGen X V) (da : PyDict (SigDef V)) (snr : Option V) (hsnr : snr.bind G.measured = none)
    (s : PyS) (fp ap fd ad fp' ap' : PyDict V) (out : SigOut X V) (hs : s ≠ []) (hh : s.head? ≠ some '#')
    (hd : Spec.DefaultsFor da s fd ad) (rev : Bool) (h1 : fp.find "snr".toList = none) (h2 : fd.find "snr".toList = none)
    (h : makeSignals G da snr (.list [.pair2 (if rev then '#' :: s else s) fp ap]) false = .ok (out, [(fp', ap')])) :
    makeSignals G da snr (.list [.pair2 (if rev then '#' :: s else s) fp' ap']) false = .ok (out, [(fp', ap')]) := by
  obtain ⟨name, hn⟩ := sigProcess_params da s fp ap fd ad hs hh hd rev
  obtain ⟨name', hn'⟩ := sigProcess_params da s (mergeDefaults fp fd) (mergeDefaults ap ad) fd ad hs hh hd rev
  rw [merge_idem, merge_idem] at hn'
  have hname : name' = name := (sigProcess_key da _ _ hn').trans (sigProcess_key da _ _ hn).symm
  rw [makeSignals_one G da snr _ fp ap _ _ name hn false] at h
  have hm : (mergeDefaults fp fd).find "snr".toList = none := by rw [find_merge, h1, h2]; rfl
  have hk : (fp', ap') = (mergeDefaults fp fd, mergeDefaults ap ad) := by
    have he : PyDict.erase (mergeDefaults fp fd) "snr".toList = mergeDefaults fp fd := by
      unfold PyDict.erase
      rw [List.filter_eq_self]
      intro e he
      have := (find_none_iff _ _).1 hm
      simp only [Bool.not_eq_true', beq_eq_false_iff_ne, ne_eq]
      intro hc
      exact this (by rw [← hc]; exact List.mem_map_of_mem (f := (·.1)) he)
    unfold sigStep sigMake at h
    simp only [bind, Except.bind, pure, Except.pure, hm, hsnr, he] at h
    cases hg : G.gen name snr (mergeDefaults fp fd) (mergeDefaults ap ad) with
    | error e => rw [hg] at h; cases h
    | ok x =>
      rw [hg] at h
      simp only [Except.map, Except.ok.injEq, Prod.mk.injEq, List.cons.injEq, and_true] at h
      exact (Prod.ext h.2.1 h.2.2).symm
  rw [Prod.mk.injEq] at hk
  rw [hk.1, hk.2, makeSignals_one G da snr _ _ _ _ _ name' hn' false, hname, h, hk.1, hk.2]

/-! ## Seeds -/

/-- **C92, as claimed**: with a seed the noise does not depend on what was drawn before. -/
def C92_full : Prop :=
  ∀ (R α : Type) (g : Rng R α) (seed n : ℕ) (st st' : R), (tsNoise g (some seed) n st).1 = (tsNoise g (some seed) n st').1

/-- **C92 is false of the code**: seed 0 counts as no seed. -/
theorem C92_refuted : ¬ C92_full := by
  intro h
  have := h ℕ ℕ ⟨id, fun _ s => ([s], s + 1)⟩ 0 1 0 1
  revert this
  decide

/-- **C92, partial**: it holds for every other seed, and the noise is that drawn right after seeding. -/
theorem C92_seed_partial (R α : Type) (g : Rng R α) (seed n : ℕ) (hs : seed ≠ 0) (st : R) :
    (tsNoise g (some seed) n st).1 = (g.randn n (g.seed seed)).1 := by
  obtain ⟨s, rfl⟩ := Nat.exists_eq_succ_of_ne_zero hs
  rfl

example : (5 : ℕ) ≠ 0 := by decide

end Ssq
