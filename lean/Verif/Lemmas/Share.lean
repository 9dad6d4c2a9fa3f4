import Verif.Spec.Share
import Mathlib.Data.List.GetD

/-!
# Memory before and after `ssq_cwt` and `ssq_stft`
-/
namespace Ssq

lemma prepareShare_eq {V : Type} (ops : ShareOps V) (m : AMem V) (d : V) (a : ShareArgs V) (wd : V × V) :
    prepareShare ops m d a wd =
      (m ++ ([wd.1, wd.2] ++ (if a.preserves then [wd.1] else []) ++ (if a.getW then [ops.phase wd.1 wd.2] else [])),
        m.length, m.length + 1, (if a.preserves then m.length + 2 else m.length),
        if a.getW then .inl (m.length + if a.preserves then 3 else 2) else .inr (m.length + 1)) := by
  unfold prepareShare AMem.new AMem.get
  cases a.preserves <;> cases a.getW <;> simp

lemma toHost_ext {V : Type} (ops : ShareOps V) (d : V) (c : Bool) (m : AMem V) (r : ARef) :
    ∃ t, (toHost ops d c m r).1 = m ++ t ∧ t.length = (if c then 1 else 0) := by
  unfold toHost AMem.new
  cases c
  · exact ⟨[], by simp⟩
  · exact ⟨_, rfl, rfl⟩

lemma toHost_ref {V : Type} (ops : ShareOps V) (d : V) (c : Bool) (m : AMem V) (r : ARef) :
    (toHost ops d c m r).2 = if c then ⟨m.length, false⟩ else r := by
  unfold toHost AMem.new
  cases c <;> rfl

lemma read_append {V : Type} (ops : ShareOps V) (d : V) (m t : AMem V) (r : ARef) (h : r.buf < m.length) :
    r.read ops (m ++ t) d = r.read ops m d := by
  unfold ARef.read AMem.get
  rw [List.getD_append _ _ _ _ h]

lemma toHost_read {V : Type} (ops : ShareOps V) (d : V) (c : Bool) (m : AMem V) (r : ARef) :
    (toHost ops d c m r).2.read ops (toHost ops d c m r).1 d = r.read ops m d := by
  unfold toHost AMem.new
  cases c
  · rfl
  · simp [ARef.read, AMem.get]

lemma read_new {V : Type} (ops : ShareOps V) (d : V) (m t : AMem V) (k : ℕ) :
    (⟨m.length + k, false⟩ : ARef).read ops (m ++ t) d = t.getD k d := by
  simp only [ARef.read, AMem.get, Bool.false_eq_true, if_false]
  rw [List.getD_append_right _ _ _ _ (by omega)]
  simp

lemma hostRefs_true {V : Type} (ops : ShareOps V) (d : V) (frT : Bool) (m : AMem V) (r : SsqRefs)
    (hT : r.Tx.buf < m.length) (hW : r.Wx.buf < m.length) (hd : r.dWx.buf < m.length) (hg : r.grid.buf < m.length)
    (hf : r.freqs.buf < m.length) (hw : ∀ q, r.w = some q → q.buf < m.length) :
    hostRefs ops d true frT m r =
      (m ++ ([r.Tx.read ops m d, r.Wx.read ops m d, r.dWx.read ops m d, r.grid.read ops m d] ++
          (if frT then [r.freqs.read ops m d] else []) ++ (r.w.map fun q => q.read ops m d).toList),
        ⟨⟨m.length, false⟩, ⟨m.length + 1, false⟩, if frT then ⟨m.length + 4, false⟩ else r.freqs,
          ⟨m.length + 3, false⟩, r.w.map fun _ => ⟨m.length + 4 + (if frT then 1 else 0), false⟩,
          ⟨m.length + 2, false⟩⟩) := by
  obtain ⟨Tx, Wx, fr, gr, w, dW⟩ := r
  simp only at hT hW hd hg hf hw
  cases w with
  | none =>
    cases frT <;>
    simp only [hostRefs, toHost, AMem.new, if_true, Bool.and_false, Bool.and_true, Bool.false_eq_true, if_false,
      List.append_assoc, read_append _ _ _ _ _ hW, read_append _ _ _ _ _ hd, read_append _ _ _ _ _ hg,
      read_append _ _ _ _ _ hf] <;> simp
  | some w =>
    have hw' := hw w rfl
    cases frT <;>
    simp only [hostRefs, toHost, AMem.new, if_true, Bool.and_false, Bool.and_true, Bool.false_eq_true, if_false,
      List.append_assoc, read_append _ _ _ _ _ hW, read_append _ _ _ _ _ hd, read_append _ _ _ _ _ hg,
      read_append _ _ _ _ _ hf, read_append _ _ _ _ _ hw'] <;> simp

/-- What is kept from one memory to a later one. -/
structure HostOk {V : Type} (ops : ShareOps V) (d : V) (host frT : Bool) (m : AMem V) (r : SsqRefs) (n : AMem V)
    (s : SsqRefs) : Prop where
  ext : ∃ t, n = m ++ t
  Tx : s.Tx.read ops n d = r.Tx.read ops m d
  Wx : s.Wx.read ops n d = r.Wx.read ops m d
  dWx : s.dWx.read ops n d = r.dWx.read ops m d
  grid : s.grid.read ops n d = r.grid.read ops m d
  freqs : s.freqs.read ops n d = r.freqs.read ops m d
  w : s.w.map (fun q => q.read ops n d) = r.w.map (fun q => q.read ops m d)
  bTx : s.Tx = if host then ⟨m.length, false⟩ else r.Tx
  bWx : s.Wx = if host then ⟨m.length + 1, false⟩ else r.Wx
  bdWx : s.dWx = if host then ⟨m.length + 2, false⟩ else r.dWx
  bgrid : s.grid = if host then ⟨m.length + 3, false⟩ else r.grid
  bfreqs : s.freqs = if host && frT then ⟨m.length + 4, false⟩ else r.freqs
  bw : s.w = r.w.map fun q => if host then ⟨m.length + 4 + (if frT then 1 else 0), false⟩ else q
  len : ∀ p q, Spec.Ret.of s p = some q → q.buf < n.length

lemma hostRefs_ok {V : Type} (ops : ShareOps V) (d : V) (host frT : Bool) (m : AMem V) (r : SsqRefs)
    (h : ∀ p q, Spec.Ret.of r p = some q → q.buf < m.length) :
    HostOk ops d host frT m r (hostRefs ops d host frT m r).1 (hostRefs ops d host frT m r).2 := by
  have hT := h .Tx _ rfl
  have hW := h .Wx _ rfl
  have hd := h .dWx _ rfl
  have hg := h .grid _ rfl
  have hf := h .freqs _ rfl
  have hw := fun q => h .w q
  obtain ⟨Tx, Wx, fr, gr, w, dW⟩ := r
  simp only [Spec.Ret.of] at hT hW hd hg hf hw
  cases host
  · have e : hostRefs ops d false frT m ⟨Tx, Wx, fr, gr, w, dW⟩ = (m, ⟨Tx, Wx, fr, gr, w, dW⟩) := by
      unfold hostRefs toHost
      cases w <;> simp
    rw [e]
    exact ⟨⟨[], by simp⟩, rfl, rfl, rfl, rfl, rfl, rfl, rfl, rfl, rfl, rfl, rfl, by simp, h⟩
  · rw [hostRefs_true ops d frT m _ hT hW hd hg hf hw]
    constructor
    · exact ⟨_, rfl⟩
    · exact read_new ops d m _ 0
    · exact read_new ops d m _ 1
    · exact read_new ops d m _ 2
    · exact read_new ops d m _ 3
    · cases frT
      · exact read_append ops d m _ _ hf
      · exact read_new ops d m _ 4
    · cases w
      · rfl
      · simp only [Option.map_some]
        cases frT
        · exact congrArg some (read_new ops d m _ 4)
        · exact congrArg some (read_new ops d m _ 5)
    · rfl
    · rfl
    · rfl
    · rfl
    · cases frT <;> rfl
    · rfl
    · intro p q hq
      cases p <;> cases frT <;> cases w <;> simp [Spec.Ret.of] at hq <;> subst hq <;> simp <;> omega

/-- What `ssqueeze` does to the memory. -/
structure SqueezeOk {V : Type} (ops : ShareOps V) (d : V) (m : AMem V) (wx : ℕ) (rows : ℕ ⊕ ℕ) (fr : ARef) (frT : Bool)
    (sq : SqArg V) (reversed : Bool) (n : AMem V) (tx : ℕ) (f : ARef) : Prop where
  len : m.length ≤ n.length
  kept : ∀ i, i < m.length → i ≠ wx → n.getD i d = m.getD i d
  builtIn : Spec.BuiltIn sq → n.getD wx d = m.getD wx d
  left : ∀ l r, sq = .fn l r → n.getD wx d = l (m.getD wx d)
  txLen : tx < n.length
  txNew : m.length ≤ tx
  txVal : n.getD tx d = ops.squeeze (Spec.squeezedValue ops sq (m.getD wx d))
    (rows.map (fun i => m.getD i d) (fun i => m.getD i d)) (fr.read ops m d)
  freqs : f.read ops n d = if reversed then ops.rev (fr.read ops m d) else fr.read ops m d
  freqsBuf : if reversed && frT then m.length ≤ f.buf ∧ f.buf ≠ tx else f.buf = fr.buf
  freqsLen : f.buf < n.length
  freqsRev : frT = false → f.rev = (reversed ^^ fr.rev)

lemma squeezeIn_ok {V : Type} (ops : ShareOps V) (d : V) (m : AMem V) (wx : ℕ) (sq : SqArg V) (hwx : wx < m.length) :
    (squeezeIn ops m d wx sq).2 < (squeezeIn ops m d wx sq).1.length ∧
    m.length ≤ (squeezeIn ops m d wx sq).1.length ∧
    (∀ i, i < m.length → i ≠ wx → (squeezeIn ops m d wx sq).1.getD i d = m.getD i d) ∧
    (Spec.BuiltIn sq → (squeezeIn ops m d wx sq).1.getD wx d = m.getD wx d) ∧
    (∀ l r, sq = .fn l r → (squeezeIn ops m d wx sq).1.getD wx d = l (m.getD wx d)) ∧
    (squeezeIn ops m d wx sq).1.getD (squeezeIn ops m d wx sq).2 d = Spec.squeezedValue ops sq (m.getD wx d) := by
  cases sq with
  | sum => exact ⟨hwx, le_refl _, fun _ _ _ => rfl, fun _ => rfl, by simp, rfl⟩
  | lebesgue =>
    refine ⟨by simp [squeezeIn, AMem.new], by simp [squeezeIn, AMem.new], fun i hi _ => ?_, fun _ => ?_, by simp, ?_⟩
    · exact List.getD_append _ _ _ _ hi
    · exact List.getD_append _ _ _ _ hwx
    · simp [squeezeIn, AMem.new, AMem.get, Spec.squeezedValue]
  | abs =>
    refine ⟨by simp [squeezeIn, AMem.new], by simp [squeezeIn, AMem.new], fun i hi _ => ?_, fun _ => ?_, by simp, ?_⟩
    · exact List.getD_append _ _ _ _ hi
    · exact List.getD_append _ _ _ _ hwx
    · simp [squeezeIn, AMem.new, AMem.get, Spec.squeezedValue]
  | fn l r =>
    have hset : ∀ i, i ≠ wx → (m.set wx (l (m.getD wx d))).getD i d = m.getD i d := by
      intro i hi
      simp [Ne.symm hi]
    have hat : (m.set wx (l (m.getD wx d))).getD wx d = l (m.getD wx d) := by
      simp [hwx]
    cases hr : r (m.getD wx d) with
    | none =>
      have e : squeezeIn ops m d wx (.fn l r) = (m.set wx (l (m.getD wx d)), wx) := by
        simp only [squeezeIn, AMem.get, hr]
      rw [e]
      refine ⟨by simpa using hwx, by simp, fun i _ hi => hset i hi, fun h => h.elim, ?_, ?_⟩
      · intro l' r' h
        cases h
        exact hat
      · simp only [Spec.squeezedValue, hr, Option.getD_none]
        exact hat
    | some v =>
      have e : squeezeIn ops m d wx (.fn l r) = (m.set wx (l (m.getD wx d)) ++ [v], m.length) := by
        simp only [squeezeIn, AMem.get, hr, AMem.new, List.length_set]
      rw [e]
      refine ⟨by simp, by simp, fun i hi hne => ?_, fun h => h.elim, ?_, ?_⟩
      · show (m.set wx (l (m.getD wx d)) ++ [v]).getD i d = _
        rw [List.getD_append _ _ _ _ (by simpa using hi)]
        exact hset i hne
      · intro l' r' h
        cases h
        show (m.set wx (l (m.getD wx d)) ++ [v]).getD wx d = _
        rw [List.getD_append _ _ _ _ (by simpa using hwx)]
        exact hat
      · simp only [Spec.squeezedValue, hr, Option.getD_some]
        show (m.set wx (l (m.getD wx d)) ++ [v]).getD m.length d = v
        rw [List.getD_append_right _ _ _ _ (by simp)]
        simp

lemma read_congr {V : Type} (ops : ShareOps V) (d : V) (m n : AMem V) (r : ARef) (h : n.getD r.buf d = m.getD r.buf d) :
    r.read ops n d = r.read ops m d := by
  unfold ARef.read AMem.get
  rw [h]

lemma ssqueezeShare_ok {V : Type} (ops : ShareOps V) (hrev : ∀ v, ops.rev (ops.rev v) = v) (d : V) (m : AMem V) (wx : ℕ)
    (rows : ℕ ⊕ ℕ) (fr : ARef) (frT : Bool) (sq : SqArg V) (reversed : Bool) (hwx : wx < m.length)
    (hfr : fr.buf < m.length) (hfw : fr.buf ≠ wx) (hrows : rows.elim id id < m.length) (hrw : rows.elim id id ≠ wx) :
    SqueezeOk ops d m wx rows fr frT sq reversed (ssqueezeShare ops m d wx rows fr frT sq reversed).1
      (ssqueezeShare ops m d wx rows fr frT sq reversed).2.1 (ssqueezeShare ops m d wx rows fr frT sq reversed).2.2 := by
  obtain ⟨h1, h2, h3, h4, h5, h6⟩ := squeezeIn_ok ops d m wx sq hwx
  generalize hS : squeezeIn ops m d wx sq = S at h1 h2 h3 h4 h5 h6
  obtain ⟨m1, wx'⟩ := S
  simp only at h1 h2 h3 h4 h5 h6
  have hfr1 : fr.read ops m1 d = fr.read ops m d := read_congr ops d m m1 fr (h3 _ hfr hfw)
  have hro : rows.map (m1.get d) (m1.get d) = rows.map (fun i => m.getD i d) (fun i => m.getD i d) := by
    cases rows with
    | inl i => exact congrArg Sum.inl (h3 i hrows hrw)
    | inr i => exact congrArg Sum.inr (h3 i hrows hrw)
  have hval : m1.get d wx' = Spec.squeezedValue ops sq (m.getD wx d) := h6
  set T := ops.squeeze (Spec.squeezedValue ops sq (m.getD wx d))
    (rows.map (fun i => m.getD i d) (fun i => m.getD i d)) (fr.read ops m d) with hTd
  have hg : ∀ i (t : AMem V), i < m1.length → (m1 ++ t).getD i d = m1.getD i d :=
    fun i t hi => List.getD_append _ _ _ _ hi
  have hnew : ∀ t : AMem V, (m1 ++ (T :: t)).getD m1.length d = T := by
    intro t
    rw [List.getD_append_right _ _ _ _ (le_refl _)]
    simp
  have hf2 : ∀ t : AMem V, fr.read ops (m1 ++ t) d = fr.read ops m d := by
    intro t
    rw [read_append ops d m1 t fr (by omega), hfr1]
  have hkey : ssqueezeShare ops m d wx rows fr frT sq reversed =
      if reversed then
        if frT then (m1 ++ [T, ops.rev (fr.read ops m d)], m1.length, ⟨m1.length + 1, false⟩)
        else (m1 ++ [T], m1.length, ⟨fr.buf, !fr.rev⟩)
      else (m1 ++ [T], m1.length, fr) := by
    simp only [ssqueezeShare, hS, AMem.new, hval, hro, hfr1, hf2, ← hTd]
    cases reversed <;> cases frT <;> simp
  rw [hkey]
  have base : ∀ (t : AMem V), m.length ≤ (m1 ++ (T :: t)).length ∧ m1.length < (m1 ++ (T :: t)).length := by
    intro t
    simp only [List.length_append, List.length_cons]
    omega
  have common : ∀ (t : AMem V) (f : ARef),
      f.read ops (m1 ++ (T :: t)) d = (if reversed then ops.rev (fr.read ops m d) else fr.read ops m d) →
      (if reversed && frT then m.length ≤ f.buf ∧ f.buf ≠ m1.length else f.buf = fr.buf) →
      f.buf < (m1 ++ (T :: t)).length → (frT = false → f.rev = (reversed ^^ fr.rev)) →
      SqueezeOk ops d m wx rows fr frT sq reversed (m1 ++ (T :: t)) m1.length f := by
    intro t f hf hb hl hr
    exact ⟨(base t).1, fun i hi hne => (hg i _ (by omega)).trans (h3 i hi hne),
      fun hb => (hg wx _ (by omega)).trans (h4 hb), fun l r h => (hg wx _ (by omega)).trans (h5 l r h), (base t).2, h2,
      hnew t, hf, hb, hl, hr⟩
  cases reversed
  · exact common [] fr (hf2 _) rfl (by have := (base []).1; omega) (by simp)
  · cases frT
    · refine common [] ⟨fr.buf, !fr.rev⟩ ?_ rfl (by have := (base []).1; simp only; omega) (by simp)
      have := hf2 [T]
      simp only [if_true]
      rw [← this]
      unfold ARef.read
      cases fr.rev <;> simp [hrev]
    · refine common [ops.rev (fr.read ops m d)] ⟨m1.length + 1, false⟩ ?_ ?_ ?_ (by simp)
      · simpa using read_new ops d m1 [T, ops.rev (fr.read ops m d)] 1
      · simp only [Bool.and_self, if_true]
        omega
      · simp

/-- What a call gives, whatever the options. -/
structure CallOk {V : Type} (ops : ShareOps V) (d : V) (m : AMem V) (a : ShareArgs V) (wd : V × V) (gv fv : V)
    (s : ℕ) (fr : ARef) (frT host reversed : Bool) (n : AMem V) (r : SsqRefs) : Prop where
  args : ∀ i, i < m.length → n.getD i d = m.getD i d
  Wx : a.preserves = true ∨ Spec.BuiltIn a.squeezing → r.Wx.read ops n d = wd.1
  left : ∀ l g, a.squeezing = .fn l g → a.preserves = false → r.Wx.read ops n d = l wd.1
  Tx : r.Tx.read ops n d = ops.squeeze (Spec.squeezedValue ops a.squeezing wd.1)
    (if a.getW then .inl (ops.phase wd.1 wd.2) else .inr wd.2) fv
  freqs : r.freqs.read ops n d = if reversed then ops.rev fv else fv
  grid : r.grid.read ops n d = gv
  w : r.w.map (fun q => q.read ops n d) = if a.getW then some (ops.phase wd.1 wd.2) else none
  dWx : r.dWx.read ops n d = wd.2
  len : ∀ p x, Spec.Ret.of r p = some x → x.buf < n.length
  fresh : ∀ p x, Spec.Ret.of r p = some x → p ≠ .freqs → p ≠ .grid → m.length ≤ x.buf
  distinct : ∀ p q x y, p ≠ q → ¬ (p = .freqs ∧ q = .grid) → ¬ (p = .grid ∧ q = .freqs) → Spec.Ret.of r p = some x →
    Spec.Ret.of r q = some y → x.buf ≠ y.buf
  gridBuf : if host then m.length ≤ r.grid.buf ∧ r.grid.buf ≠ r.freqs.buf else r.grid.buf = s
  freqsBuf : if frT && (host || reversed) then m.length ≤ r.freqs.buf ∧ r.grid.buf ≠ r.freqs.buf
    else r.freqs.buf = fr.buf
  gridRev : r.grid.rev = false
  freqsRev : frT = false → r.freqs.rev = (reversed ^^ fr.rev)

lemma getD_prep {V : Type} (d : V) (m t : AMem V) (k : ℕ) : (m ++ t).getD (m.length + k) d = t.getD k d := by
  rw [List.getD_append_right _ _ _ _ (by omega)]
  simp

lemma bufs_distinct (host frT reversed : Bool) (M L P m3 m4 tx s frb fb T W D G F : ℕ) (h1 : M ≤ L) (h2 : L + 2 ≤ P)
    (h3 : P ≤ m3) (htx : m3 ≤ tx) (hs : s < L ∨ s = P ∧ P + 1 ≤ m3)
    (hf : frb < M ∨ frb = P ∧ P + 1 ≤ m3)
    (bf : if (reversed && frT) = true then m3 ≤ fb ∧ fb ≠ tx else fb = frb) (bl : fb < m4)
    (hT : T = if host then m4 else tx) (hW : W = if host then m4 + 1 else L) (hD : D = if host then m4 + 2 else L + 1)
    (hG : G = if host then m4 + 3 else s) (hF : F = if (host && frT) = true then m4 + 4 else fb) :
    T ≠ W ∧ T ≠ D ∧ T ≠ G ∧ T ≠ F ∧ W ≠ D ∧ W ≠ G ∧ W ≠ F ∧ D ≠ G ∧ D ≠ F ∧
      ∀ k y, L + 2 ≤ k → k < P → (y = if host then m4 + 4 + (if frT then 1 else 0) else k) →
        T ≠ y ∧ W ≠ y ∧ D ≠ y ∧ G ≠ y ∧ F ≠ y := by
  cases host <;> cases frT <;> cases reversed <;> simp at bf hT hW hD hG hF <;>
    refine ⟨by omega, by omega, by omega, by omega, by omega, by omega, by omega, by omega, by omega, ?_⟩ <;>
    intro k y hk1 hk2 hy <;> simp at hy <;> refine ⟨by omega, by omega, by omega, by omega, by omega⟩

/-- From the arrays before copying to the host to the returned ones. -/
lemma share_ok {V : Type} (ops : ShareOps V) (hrev : ∀ v, ops.rev (ops.rev v) = v) (d : V) (m m1 m3 : AMem V)
    (a : ShareArgs V) (wd : V × V) (s : ℕ) (fr : ARef) (frT host reversed : Bool) (t1 t3 : AMem V) (gv fv : V)
    (h1 : m1 = m ++ t1)
    (h3 : m3 = (prepareShare ops m1 d a wd).1 ++ t3)
    (hs : s < m1.length ∨ s = (prepareShare ops m1 d a wd).1.length ∧ 1 ≤ t3.length) (hsv : m3.getD s d = gv)
    (hf : fr.buf < m.length ∨ fr.buf = (prepareShare ops m1 d a wd).1.length ∧ 1 ≤ t3.length)
    (hfv : fr.read ops m3 d = fv) :
    let p := prepareShare ops m1 d a wd
    let q := ssqueezeShare ops m3 d p.2.2.2.1 p.2.2.2.2 fr frT a.squeezing reversed
    let z := hostRefs ops d host frT q.1
      ⟨⟨q.2.1, false⟩, ⟨p.2.1, false⟩, q.2.2, ⟨s, false⟩, wOf p.2.2.2.2, ⟨p.2.2.1, false⟩⟩
    CallOk ops d m a wd gv fv s fr frT host reversed z.1 z.2 := by
  have hp := prepareShare_eq ops m1 d a wd
  generalize hP : prepareShare ops m1 d a wd = p at *
  subst hp
  set t2 : AMem V := [wd.1, wd.2] ++ (if a.preserves then [wd.1] else []) ++
    (if a.getW then [ops.phase wd.1 wd.2] else []) with ht2
  simp only at h3 hs hf ⊢
  set L := m1.length with hL
  set wx' := if a.preserves = true then L + 2 else L with hwx'
  set rows : ℕ ⊕ ℕ := if a.getW = true then .inl (L + if a.preserves = true then 3 else 2) else .inr (L + 1) with hrows
  have hlt2 : t2.length = 2 + (if a.preserves then 1 else 0) + (if a.getW then 1 else 0) := by
    simp only [ht2, List.length_append]
    cases a.preserves <;> cases a.getW <;> rfl
  have hLm : m.length ≤ L := by rw [hL, h1, List.length_append]; omega
  have hl3 : m3.length = L + t2.length + t3.length := by rw [h3, List.length_append, List.length_append]
  have hlp : (m1 ++ t2).length = L + t2.length := List.length_append ..
  rw [hlp] at hs hf
  have hget : ∀ k, k < t2.length → m3.getD (L + k) d = t2.getD k d := by
    intro k hk
    rw [h3, List.getD_append _ _ _ _ (by rw [hlp]; omega), hL, getD_prep]
  have g0 : m3.getD L d = wd.1 := by
    have := hget 0 (by omega)
    simpa [ht2] using this
  have g1 : m3.getD (L + 1) d = wd.2 := by
    have := hget 1 (by omega)
    simpa [ht2] using this
  have gx' : m3.getD wx' d = wd.1 := by
    by_cases hpr : a.preserves = true
    · have := hget 2 (by rw [hlt2]; simp [hpr]; omega)
      simpa [hwx', hpr, ht2] using this
    · simpa [hwx', hpr] using g0
  have grow : rows.map (fun i => m3.getD i d) (fun i => m3.getD i d) =
      if a.getW then .inl (ops.phase wd.1 wd.2) else .inr wd.2 := by
    by_cases hw : a.getW = true
    · simp only [hrows, hw, if_true, Sum.map_inl]
      by_cases hpr : a.preserves = true
      · have := hget 3 (by rw [hlt2]; simp [hpr, hw])
        simpa [hpr, ht2, hw] using this
      · have := hget 2 (by rw [hlt2]; simp [hpr, hw])
        simpa [hpr, ht2, hw] using this
    · simpa [hrows, hw] using g1
  have hwxlt : wx' < L + t2.length := by
    rw [hlt2, hwx']
    split <;> omega
  have hrlt : rows.elim id id < L + t2.length := by
    rw [hlt2, hrows]
    by_cases hw : a.getW = true <;> by_cases hpr : a.preserves = true <;> simp [hw, hpr]
  have hrne : rows.elim id id ≠ wx' := by
    rw [hwx', hrows]
    by_cases hw : a.getW = true <;> by_cases hpr : a.preserves = true <;> simp [hw, hpr]
  have hwxL : L ≤ wx' := by rw [hwx']; split <;> omega
  have hrL : L ≤ rows.elim id id := by
    rw [hrows]
    by_cases hw : a.getW = true <;> by_cases hpr : a.preserves = true <;> simp [hw, hpr]
  have hq := ssqueezeShare_ok ops hrev d m3 wx' rows fr frT a.squeezing reversed (by omega) (by omega) (by omega) (by omega)
    hrne
  generalize ssqueezeShare ops m3 d wx' rows fr frT a.squeezing reversed = q at hq ⊢
  obtain ⟨m4, tx, fr'⟩ := q
  simp only at hq ⊢
  have hlen4 := hq.len
  have hw3 : ∀ w, wOf rows = some w → rows = .inl w.buf ∧ w.rev = false := by
    intro w hw
    cases hr : rows with
    | inl i => rw [hr] at hw; simp only [wOf, Option.some.injEq] at hw; subst hw; exact ⟨rfl, rfl⟩
    | inr i => rw [hr] at hw; simp [wOf] at hw
  have hz := hostRefs_ok ops d host frT m4
    ⟨⟨tx, false⟩, ⟨L, false⟩, fr', ⟨s, false⟩, wOf rows, ⟨L + 1, false⟩⟩ (by
      intro p q hpq
      cases p <;> simp only [Spec.Ret.of, Option.some.injEq] at hpq
      · subst hpq; exact hq.txLen
      · subst hpq; simp only; omega
      · subst hpq; exact hq.freqsLen
      · subst hpq; simp only; omega
      · have := (hw3 q hpq).1
        rw [this] at hrlt
        simp only [Sum.elim_inl, id] at hrlt
        omega
      · subst hpq; simp only; omega)
  generalize hostRefs ops d host frT m4
    ⟨⟨tx, false⟩, ⟨L, false⟩, fr', ⟨s, false⟩, wOf rows, ⟨L + 1, false⟩⟩ = z at hz ⊢
  obtain ⟨n, r⟩ := z
  simp only at hz ⊢
  have hwb : ∀ x, r.w = some x → ∃ k, L + 2 ≤ k ∧ k < L + t2.length ∧ k ≠ wx' ∧
      x.buf = if host then m4.length + 4 + (if frT then 1 else 0) else k := by
    intro x hx
    rw [hz.bw] at hx
    cases hr : rows with
    | inl i =>
      rw [hr] at hx hrlt hrne
      simp only [wOf, Option.map_some, Option.some.injEq] at hx
      subst hx
      refine ⟨i, ?_, hrlt, hrne, by cases host <;> rfl⟩
      rw [hrows] at hr
      by_cases hw : a.getW = true
      · rw [if_pos hw] at hr
        cases hr
        split <;> omega
      · rw [if_neg hw] at hr
        cases hr
    | inr i => rw [hr] at hx; simp [wOf] at hx
  have bTx := congrArg ARef.buf hz.bTx
  have bWx := congrArg ARef.buf hz.bWx
  have bdWx := congrArg ARef.buf hz.bdWx
  have bgrid := congrArg ARef.buf hz.bgrid
  have bfreqs := congrArg ARef.buf hz.bfreqs
  have bf := hq.freqsBuf
  have bfl := hq.freqsLen
  have btx := hq.txNew
  have btl := hq.txLen
  have rd : ∀ i, (⟨i, false⟩ : ARef).read ops m4 d = m4.getD i d := fun i => by simp [ARef.read, AMem.get]
  constructor
  · intro i hi
    obtain ⟨t, ht⟩ := hz.ext
    rw [ht, List.getD_append _ _ _ _ (by omega), hq.kept i (by omega) (by omega), h3,
      List.getD_append _ _ _ _ (by rw [hlp]; omega), List.getD_append _ _ _ _ (by omega), h1,
      List.getD_append _ _ _ _ hi]
  · intro h
    rw [hz.Wx, rd]
    by_cases hpr : a.preserves = true
    · rw [hq.kept L (by omega) (by rw [hwx', if_pos hpr]; omega), g0]
    · have hx : wx' = L := by rw [hwx', if_neg hpr]
      have hb := h.resolve_left hpr
      have := hq.builtIn hb
      rw [hx] at this
      rw [this, g0]
  · intro l g hsq hpr
    rw [hz.Wx, rd]
    have hx : wx' = L := by rw [hwx', if_neg (by simp [hpr])]
    have := hq.left l g hsq
    rw [hx] at this
    rw [this, g0]
  · rw [hz.Tx, rd, hq.txVal, gx', grow, hfv]
  · rw [hz.freqs, hq.freqs, hfv]
  · rw [hz.grid, rd, hq.kept s (by omega) (by omega), hsv]
  · rw [hz.w]
    by_cases hw : a.getW = true
    · have hrr : rows = .inl (L + if a.preserves = true then 3 else 2) := by rw [hrows, if_pos hw]
      rw [if_pos hw] at grow ⊢
      have hk := hq.kept (rows.elim id id) (by omega) hrne
      rw [hrr] at grow hk ⊢
      simp only [Sum.map_inl, Sum.inl.injEq] at grow
      simp only [wOf, Option.map_some, Option.some.injEq]
      rw [rd]
      exact hk.trans grow
    · have hrr : rows = .inr (L + 1) := by rw [hrows, if_neg hw]
      rw [hrr, if_neg hw]
      rfl
  · rw [hz.dWx, rd, hq.kept (L + 1) (by omega) (by rw [hwx']; split <;> omega), g1]

  · exact hz.len
  · intro p x hx h1 h2
    cases p with
    | freqs => exact absurd rfl h1
    | grid => exact absurd rfl h2
    | w =>
      obtain ⟨k, hk1, hk2, -, hk⟩ := hwb x hx
      cases host <;> simp at hk <;> omega
    | Tx => cases hx; cases host <;> simp at bTx <;> omega
    | Wx => cases hx; cases host <;> simp at bWx <;> omega
    | dWx => cases hx; cases host <;> simp at bdWx <;> omega
  · intro p q x y hpq hn1 hn2 hx hy
    obtain ⟨e1, e2, e3, e4, e5, e6, e7, e8, e9, e10⟩ := bufs_distinct host frT reversed m.length L (L + t2.length)
      m3.length m4.length tx s fr.buf fr'.buf r.Tx.buf r.Wx.buf r.dWx.buf r.grid.buf r.freqs.buf hLm (by omega) (by omega)
      btx (by omega) (by omega) bf bfl (bTx.trans (by cases host <;> rfl)) (bWx.trans (by cases host <;> rfl))
      (bdWx.trans (by cases host <;> rfl)) (bgrid.trans (by cases host <;> rfl))
      (bfreqs.trans (by cases host <;> cases frT <;> rfl))
    have key : ∀ p q x y, p ≠ q → ¬ (p = .freqs ∧ q = .grid) → ¬ (p = .grid ∧ q = .freqs) → p ≠ .w →
        Spec.Ret.of r p = some x → Spec.Ret.of r q = some y → x.buf ≠ y.buf := by
      intro p q x y hpq hn1 hn2 hpw hx hy
      by_cases hqw : q = .w
      · subst hqw
        obtain ⟨k, hk1, hk2, -, hk⟩ := hwb y hy
        obtain ⟨f1, f2, f3, f4, f5⟩ := e10 k y.buf hk1 hk2 hk
        cases p with
        | Tx => cases hx; exact f1
        | Wx => cases hx; exact f2
        | dWx => cases hx; exact f3
        | grid => cases hx; exact f4
        | freqs => cases hx; exact f5
        | w => exact absurd rfl hpw
      · cases p <;> cases q <;> first
          | exact absurd rfl hpq
          | exact absurd rfl hpw
          | exact absurd rfl hqw
          | exact absurd ⟨rfl, rfl⟩ hn1
          | exact absurd ⟨rfl, rfl⟩ hn2
          | (cases hx; cases hy; first | assumption | (apply Ne.symm; assumption))
    by_cases hpw : p = .w
    · exact (key q p y x (Ne.symm hpq) (fun h => hn2 ⟨h.2, h.1⟩) (fun h => hn1 ⟨h.2, h.1⟩)
        (fun h => hpq (hpw.trans h.symm)) hy hx).symm
    · exact key p q x y hpq hn1 hn2 hpw hx hy
  · cases host <;> cases frT <;> cases reversed <;> simp at bgrid bfreqs bf ⊢ <;> omega
  · cases host <;> cases frT <;> cases reversed <;> simp at bgrid bfreqs bf ⊢ <;> omega
  · rw [hz.bgrid]
    cases host <;> rfl
  · intro hfT
    rw [hz.bfreqs, hfT]
    simp only [Bool.and_false, Bool.false_eq_true, if_false]
    exact hq.freqsRev hfT

lemma cwt_call {V : Type} (ops : ShareOps V) (hrev : ∀ v, ops.rev (ops.rev v) = v) (d : V) (m : AMem V) (x : ℕ)
    (sc : Option ℕ) (same : Bool) (a : ShareArgs V) (hg : Spec.Given m x sc a) :
    ∃ (s : ℕ) (fr : ARef),
      (∀ s', sc = some s' → same = true → s = s') ∧ (sc = none ∨ same = false → s = m.length) ∧
      (∀ r, a.ssqFreqs = some r → fr = r) ∧ (a.ssqFreqs = none → m.length < fr.buf ∧ s < fr.buf) ∧
      CallOk ops d m a (ops.transform (m.getD x d) (Spec.scalesUsed ops m d sc same)) (Spec.scalesUsed ops m d sc same)
        ((a.ssqFreqs.map fun r => r.read ops m d).getD (ops.freqs (Spec.scalesUsed ops m d sc same))) s fr
        (a.freqsTensor && a.ssqFreqs.isSome) (a.tensor && !a.astensor) true
        (ssqCwtShare ops m d x sc same a).1 (ssqCwtShare ops m d x sc same a).2 := by
  obtain ⟨hx, hsc, hfr⟩ := hg
  obtain ⟨t1, s, hst, hs1, hsv, hsa, hsb⟩ : ∃ (t1 : AMem V) (s : ℕ),
      scalesShare ops m d sc same = (m ++ t1, s) ∧
      s < (m ++ t1).length ∧ (m ++ t1).getD s d = Spec.scalesUsed ops m d sc same ∧
      (∀ s', sc = some s' → same = true → s = s') ∧ (sc = none ∨ same = false → s = m.length) := by
    cases sc with
    | none => exact ⟨[ops.scales], m.length, rfl, by simp, by simp [Spec.scalesUsed], by simp, by simp⟩
    | some s =>
      have hs := hsc s rfl
      cases same with
      | true => exact ⟨[], s, by simp [scalesShare], by simpa using hs, by simp [Spec.scalesUsed], by simp, by simp⟩
      | false =>
        exact ⟨[ops.cast (m.getD s d)], m.length, rfl, by simp, by simp [Spec.scalesUsed], by simp, by simp⟩
  have hx1 : (m ++ t1).get d x = m.getD x d := List.getD_append _ _ _ _ hx
  have hsv' : (m ++ t1).get d s = Spec.scalesUsed ops m d sc same := hsv
  set wd := ops.transform (m.getD x d) (Spec.scalesUsed ops m d sc same) with hwd
  have hpe := prepareShare_eq ops (m ++ t1) d a wd
  have hPlen : (m ++ t1).length + 2 ≤ (prepareShare ops (m ++ t1) d a wd).1.length := by
    rw [hpe]
    simp only [List.length_append, List.length_cons, List.length_nil]
    omega
  obtain ⟨t2, ht2⟩ : ∃ t2, (prepareShare ops (m ++ t1) d a wd).1 = m ++ t1 ++ t2 := by rw [hpe]; exact ⟨_, rfl⟩
  have hsP : (prepareShare ops (m ++ t1) d a wd).1.getD s d = Spec.scalesUsed ops m d sc same := by
    rw [ht2, List.getD_append _ _ _ _ hs1, hsv]
  obtain ⟨t3, fr, hft, hf1, hfv, hfa, hfb⟩ : ∃ (t3 : AMem V) (fr : ARef),
      freqsCwtShare ops (prepareShare ops (m ++ t1) d a wd).1 d s a.ssqFreqs = ((prepareShare ops (m ++ t1) d a wd).1 ++ t3, fr) ∧
      (fr.buf < m.length ∨ fr.buf = (prepareShare ops (m ++ t1) d a wd).1.length ∧ 1 ≤ t3.length) ∧
      fr.read ops ((prepareShare ops (m ++ t1) d a wd).1 ++ t3) d =
        (a.ssqFreqs.map fun r => r.read ops m d).getD (ops.freqs (Spec.scalesUsed ops m d sc same)) ∧
      (∀ r, a.ssqFreqs = some r → fr = r) ∧ (a.ssqFreqs = none → m.length < fr.buf ∧ s < fr.buf) := by
    cases ha : a.ssqFreqs with
    | none =>
      refine ⟨[ops.freqs (Spec.scalesUsed ops m d sc same)], ⟨(prepareShare ops (m ++ t1) d a wd).1.length, false⟩, ?_,
        Or.inr ⟨rfl, by simp⟩, ?_, by simp, fun _ => ?_⟩
      · simp only [freqsCwtShare, AMem.new, AMem.get, hsP]
      · simpa using read_new ops d (prepareShare ops (m ++ t1) d a wd).1 [ops.freqs (Spec.scalesUsed ops m d sc same)] 0
      · simp only [List.length_append] at hPlen hs1 ⊢
        omega
    | some r =>
      have hr := hfr r ha
      refine ⟨[], r, by simp [freqsCwtShare], Or.inl hr, ?_, by simp, by simp⟩
      rw [List.append_nil, ht2, List.append_assoc, read_append ops d m _ r hr]
      rfl
  refine ⟨s, fr, hsa, hsb, hfa, hfb, ?_⟩
  have := share_ok ops hrev d m (m ++ t1) ((prepareShare ops (m ++ t1) d a wd).1 ++ t3) a wd s fr
    (a.freqsTensor && a.ssqFreqs.isSome) (a.tensor && !a.astensor) true t1 t3 (Spec.scalesUsed ops m d sc same)
    ((a.ssqFreqs.map fun r => r.read ops m d).getD (ops.freqs (Spec.scalesUsed ops m d sc same))) rfl rfl
    (Or.inl hs1) (by rw [List.getD_append _ _ _ _ (by omega), hsP]) hf1 hfv
  have e : ssqCwtShare ops m d x sc same a =
      hostRefs ops d (a.tensor && !a.astensor) (a.freqsTensor && a.ssqFreqs.isSome)
        (ssqueezeShare ops ((prepareShare ops (m ++ t1) d a wd).1 ++ t3) d (prepareShare ops (m ++ t1) d a wd).2.2.2.1
          (prepareShare ops (m ++ t1) d a wd).2.2.2.2 fr (a.freqsTensor && a.ssqFreqs.isSome) a.squeezing true).1
        ⟨⟨(ssqueezeShare ops ((prepareShare ops (m ++ t1) d a wd).1 ++ t3) d (prepareShare ops (m ++ t1) d a wd).2.2.2.1
          (prepareShare ops (m ++ t1) d a wd).2.2.2.2 fr (a.freqsTensor && a.ssqFreqs.isSome) a.squeezing true).2.1, false⟩,
          ⟨(prepareShare ops (m ++ t1) d a wd).2.1, false⟩,
          (ssqueezeShare ops ((prepareShare ops (m ++ t1) d a wd).1 ++ t3) d (prepareShare ops (m ++ t1) d a wd).2.2.2.1
          (prepareShare ops (m ++ t1) d a wd).2.2.2.2 fr (a.freqsTensor && a.ssqFreqs.isSome) a.squeezing true).2.2,
          ⟨s, false⟩, wOf (prepareShare ops (m ++ t1) d a wd).2.2.2.2, ⟨(prepareShare ops (m ++ t1) d a wd).2.2.1, false⟩⟩ := by
    unfold ssqCwtShare
    rw [hst]
    simp only [hx1, hsv', ← hwd]
    generalize hP : prepareShare ops (m ++ t1) d a wd = P at hft ⊢
    obtain ⟨p1, p2, p3, p4, p5⟩ := P
    simp only [AMem.new] at hft ⊢
    rw [hft]
  rw [e]
  exact this

lemma stft_call {V : Type} (ops : ShareOps V) (hrev : ∀ v, ops.rev (ops.rev v) = v) (d : V) (m : AMem V) (x : ℕ)
    (a : ShareArgs V) (hg : Spec.Given m x none a) :
    ∃ (s : ℕ) (fr : ARef),
      m.length ≤ s ∧ (∀ r, a.ssqFreqs = some r → fr = r) ∧ (a.ssqFreqs = none → fr = ⟨s, false⟩) ∧
      CallOk ops d m a (ops.transform (m.getD x d) ops.scales) (ops.sfs (ops.transform (m.getD x d) ops.scales).1)
        ((a.ssqFreqs.map fun r => r.read ops m d).getD (ops.sfs (ops.transform (m.getD x d) ops.scales).1)) s fr
        (if a.ssqFreqs.isSome then a.freqsTensor else a.tensor) (a.tensor && !a.astensor) a.flipud
        (ssqStftShare ops m d x a).1 (ssqStftShare ops m d x a).2 := by
  obtain ⟨hx, -, hfr⟩ := hg
  set wd := ops.transform (m.getD x d) ops.scales with hwd
  have hpe := prepareShare_eq ops m d a wd
  have hPlen : m.length + 2 ≤ (prepareShare ops m d a wd).1.length := by
    rw [hpe]
    simp only [List.length_append, List.length_cons, List.length_nil]
    omega
  obtain ⟨t2, ht2⟩ : ∃ t2, (prepareShare ops m d a wd).1 = m ++ t2 := by rw [hpe]; exact ⟨_, rfl⟩
  have hW : (prepareShare ops m d a wd).1.get d (prepareShare ops m d a wd).2.1 = wd.1 := by
    rw [hpe]
    simp [AMem.get]
  set P := (prepareShare ops m d a wd).1 with hP
  obtain ⟨fr, hft, hf1, hfv, hfa, hfb⟩ : ∃ (fr : ARef),
      freqsStftShare P.length a = (fr, if a.ssqFreqs.isSome then a.freqsTensor else a.tensor) ∧
      (fr.buf < m.length ∨ fr.buf = P.length ∧ 1 ≤ [ops.sfs wd.1].length) ∧
      fr.read ops (P ++ [ops.sfs wd.1]) d = (a.ssqFreqs.map fun r => r.read ops m d).getD (ops.sfs wd.1) ∧
      (∀ r, a.ssqFreqs = some r → fr = r) ∧ (a.ssqFreqs = none → fr = ⟨P.length, false⟩) := by
    cases ha : a.ssqFreqs with
    | none =>
      refine ⟨⟨P.length, false⟩, by simp [freqsStftShare, ha], Or.inr ⟨rfl, by simp⟩, ?_, by simp, fun _ => rfl⟩
      simp [ARef.read, AMem.get]
    | some r =>
      have hr := hfr r ha
      refine ⟨r, by simp [freqsStftShare, ha], Or.inl hr, ?_, by simp, by simp⟩
      rw [ht2, List.append_assoc, read_append ops d m _ r hr]
      rfl
  refine ⟨P.length, fr, by omega, hfa, hfb, ?_⟩
  have := share_ok ops hrev d m m (P ++ [ops.sfs wd.1]) a wd P.length fr
    (if a.ssqFreqs.isSome then a.freqsTensor else a.tensor) (a.tensor && !a.astensor) a.flipud [] [ops.sfs wd.1]
    (ops.sfs wd.1) ((a.ssqFreqs.map fun r => r.read ops m d).getD (ops.sfs wd.1)) (by simp) rfl
    (Or.inr ⟨rfl, by simp⟩) (by simp) hf1 hfv
  have e : ssqStftShare ops m d x a =
      hostRefs ops d (a.tensor && !a.astensor) (if a.ssqFreqs.isSome then a.freqsTensor else a.tensor)
        (ssqueezeShare ops (P ++ [ops.sfs wd.1]) d (prepareShare ops m d a wd).2.2.2.1
          (prepareShare ops m d a wd).2.2.2.2 fr (if a.ssqFreqs.isSome then a.freqsTensor else a.tensor) a.squeezing a.flipud).1
        ⟨⟨(ssqueezeShare ops (P ++ [ops.sfs wd.1]) d (prepareShare ops m d a wd).2.2.2.1
          (prepareShare ops m d a wd).2.2.2.2 fr (if a.ssqFreqs.isSome then a.freqsTensor else a.tensor) a.squeezing a.flipud).2.1, false⟩,
          ⟨(prepareShare ops m d a wd).2.1, false⟩,
          (ssqueezeShare ops (P ++ [ops.sfs wd.1]) d (prepareShare ops m d a wd).2.2.2.1
          (prepareShare ops m d a wd).2.2.2.2 fr (if a.ssqFreqs.isSome then a.freqsTensor else a.tensor) a.squeezing a.flipud).2.2,
          ⟨P.length, false⟩, wOf (prepareShare ops m d a wd).2.2.2.2, ⟨(prepareShare ops m d a wd).2.2.1, false⟩⟩ := by
    unfold ssqStftShare
    rw [show m.get d x = m.getD x d from rfl, ← hwd]
    rw [hP] at hft hW ⊢
    generalize hPP : prepareShare ops m d a wd = PP at hft hW ⊢
    obtain ⟨p1, p2, p3, p4, p5⟩ := PP
    simp only [AMem.new] at hft hW ⊢
    rw [hft, hW]
  rw [e]
  exact this

end Ssq
