import Verif.Model.Cache
import Verif.Lemmas.Xifn

/-!
# C55: cached wavelet samples
-/
namespace Ssq

/-- The length in force after a history: what `wavelet.N` was last set to. -/
def Spec.lastN {V : Type} (N0 : ℕ) : List (PsihStep V) → ℕ
  | [] => N0
  | .setN n :: h => Spec.lastN n h
  | _ :: h => Spec.lastN N0 h

/-- The length a call asks for: `N` if given (and not 0), the wavelet's own otherwise. -/
def Spec.askedN (N : Option ℕ) (own : ℕ) : ℕ := if N = some 0 then own else N.getD own

/-- C55 in full: whatever was done before, `Psih(scale, N, nohalf)` returns the samples for these arguments. -/
def C55_full : Prop := ∀ (f : WFn) (N0 : ℕ) (h : List (PsihStep (List (List ℂ)))) (l : List ℝ) (N : Option ℕ) (nohalf : Bool),
  let call := fun (s : PScale) (N : ℕ) (b : Bool) => waveletCall f N s.toList b
  (psihOp call (psihRun call { N := N0 } h) (.arr l) N nohalf none).2 =
    .ok (some (waveletCall f (Spec.askedN N (Spec.lastN N0 h)) l nohalf))

/-- Two lists of scales of one length that differ, entry by entry, by at most `10⁻⁸ + 10⁻⁵ |b i|`. -/
def Spec.Within (a b : List ℝ) : Prop :=
  a.length = b.length ∧ ∀ (i : ℕ) (ha : i < a.length) (hb : i < b.length),
    |a[i] - b[i]| ≤ (1 : ℝ) / 100000000 + (1 : ℝ) / 100000 * |b[i]|

variable {V : Type} (call : PScale → ℕ → Bool → V)

theorem psihN_eq (N : Option ℕ) (own : ℕ) : psihN N own = Spec.askedN N own := by
  cases N with
  | none => rfl
  | some n => cases n <;> simp [psihN, Spec.askedN]

theorem npAllclose_refl (l : List ℝ) : npAllclose l l := by
  unfold npAllclose
  induction l with
  | nil => exact .nil
  | cons a l ih => exact .cons (by rw [sub_self, abs_zero]; positivity) ih

theorem npAllclose_iff (a b : List ℝ) : npAllclose a b ↔ Spec.Within a b := by
  unfold npAllclose Spec.Within
  rw [List.forall₂_iff_get]
  refine and_congr Iff.rfl (forall_congr' fun i => forall_congr' fun ha => forall_congr' fun hb => ?_)
  have e1 : (10 : ℝ) ^ 8 = 100000000 := by norm_num
  have e2 : (10 : ℝ) ^ 5 = 100000 := by norm_num
  rw [e1, e2]
  rfl

theorem psihCompute_N (s : PsihSt V) (sc : PScale) (n : ℕ) (b : Bool) (c : Option PsihCrash) :
    (psihCompute call s sc n b c).1.N = s.N := by
  unfold psihCompute
  rcases c with _ | c
  · rcases hs : s.psih with _ | _ | v <;> cases sc <;> simp
  · rcases hs : s.psih with _ | _ | v <;> cases c <;> simp

theorem psihOp_N (s : PsihSt V) (sc : PScale) (N : Option ℕ) (b : Bool) (c : Option PsihCrash) :
    (psihOp call s sc N b c).1.N = s.N := by
  unfold psihOp
  cases sc <;> cases N <;> simp only <;> first | rfl | (split_ifs <;> first | rfl | exact psihCompute_N call _ _ _ _ _)

theorem psihRun_N (h : List (PsihStep V)) (s : PsihSt V) : (psihRun call s h).N = Spec.lastN s.N h := by
  induction h generalizing s with
  | nil => rfl
  | cons a h ih =>
    change (psihRun call (psihStep call s a) h).N = _
    rw [ih]
    cases a with
    | setN n => rfl
    | psih sc N b c => simp only [psihStep, psihOp_N]; rfl
    | edit g => rfl

/-- `Psih` on an array. -/
theorem psihOp_arr (s : PsihSt V) (l : List ℝ) (N : Option ℕ) (b : Bool) (c : Option PsihCrash) :
    (s.pN = some (psihN N s.N) ∧ l.length = s.ps.length ∧ npAllclose l s.ps ∧ psihOp call s (.arr l) N b c = (s, s.get)) ∨
    (¬ (s.pN = some (psihN N s.N) ∧ l.length = s.ps.length ∧ npAllclose l s.ps) ∧
      psihOp call s (.arr l) N b c = psihCompute call s (.arr l) (psihN N s.N) b c) := by
  by_cases h : s.pN = some (psihN N s.N) ∧ l.length = s.ps.length ∧ npAllclose l s.ps
  · exact .inl ⟨h.1, h.2.1, h.2.2, by unfold psihOp; cases N <;> simp only <;> rw [if_pos h]⟩
  · exact .inr ⟨h, by unfold psihOp; cases N <;> simp only <;> rw [if_neg h]⟩

/-- An undisturbed computation. -/
theorem psihCompute_arr (s : PsihSt V) (l : List ℝ) (n : ℕ) (b : Bool) :
    psihCompute call s (.arr l) n b none =
      (⟨s.N, some (some (call (.arr l) n b)), some n, l⟩, .ok (some (call (.arr l) n b))) := by
  unfold psihCompute
  rcases s with ⟨N, _ | _ | v, pN, ps⟩ <;> rfl

/-! ## Where it fails -/

/-- `nohalf` is not part of the cache key: the second call returns the first one's samples. -/
theorem C55_nohalf (s : PsihSt V) (l : List ℝ) (n : ℕ) (b b' : Bool)
    (hn : s.pN ≠ some (n + 1)) :
    (psihOp call (psihStep call s (.psih (.arr l) (some (n + 1)) b none)) (.arr l) (some (n + 1)) b' none).2 =
      .ok (some (call (.arr l) (n + 1) b)) := by
  have h1 : psihStep call s (.psih (.arr l) (some (n + 1)) b none) =
      ⟨s.N, some (some (call (.arr l) (n + 1) b)), some (n + 1), l⟩ := by
    simp only [psihStep]
    rcases psihOp_arr call s l (some (n + 1)) b none with h | h
    · exact absurd h.1 hn
    · rw [h.2]; exact congrArg Prod.fst (psihCompute_arr call s l _ b)
  rw [h1]
  rcases psihOp_arr call ⟨s.N, some (some (call (.arr l) (n + 1) b)), some (n + 1), l⟩ l (some (n + 1)) b' none with h | h
  · rw [h.2.2.2]; rfl
  · exact absurd ⟨rfl, rfl, npAllclose_refl l⟩ h.1

/-- Scales that differ from the cached ones by less than the tolerance of `allclose` get the cached samples. -/
theorem C55_close (s : PsihSt V) (l l' : List ℝ) (n : ℕ) (b : Bool) (hn : s.pN ≠ some (n + 1))
    (hc : Spec.Within l' l) :
    (psihOp call (psihStep call s (.psih (.arr l) (some (n + 1)) b none)) (.arr l') (some (n + 1)) b none).2 =
      .ok (some (call (.arr l) (n + 1) b)) := by
  have h1 : psihStep call s (.psih (.arr l) (some (n + 1)) b none) =
      ⟨s.N, some (some (call (.arr l) (n + 1) b)), some (n + 1), l⟩ := by
    simp only [psihStep]
    rcases psihOp_arr call s l (some (n + 1)) b none with h | h
    · exact absurd h.1 hn
    · rw [h.2]; exact congrArg Prod.fst (psihCompute_arr call s l _ b)
  rw [h1]
  rcases psihOp_arr call ⟨s.N, some (some (call (.arr l) (n + 1) b)), some (n + 1), l⟩ l' (some (n + 1)) b none with h | h
  · rw [h.2.2.2]; rfl
  · exact absurd ⟨rfl, hc.1, (npAllclose_iff _ _).2 hc⟩ h.1

/-- The state after an undisturbed call on an array. -/
def cachedSt (own n : ℕ) (l : List ℝ) (v : V) : PsihSt V := ⟨own, some (some v), some n, l⟩

/-- An exception while other samples are computed leaves the key of the old ones in place: asking again for the old ones
then returns `None`. -/
theorem C55_interrupted (own n : ℕ) (l l' : List ℝ) (b b' b'' : Bool) (v : V) (hl : l'.length ≠ l.length) :
    (psihOp call (psihStep call (cachedSt own (n + 1) l v) (.psih (.arr l') (some (n + 1)) b' (some .computing)))
      (.arr l) (some (n + 1)) b'' none).2 = .ok none := by
  have h1 : psihStep call (cachedSt own (n + 1) l v) (.psih (.arr l') (some (n + 1)) b' (some .computing)) =
      ⟨own, some none, some (n + 1), l⟩ := by
    simp only [psihStep]
    rcases psihOp_arr call (cachedSt own (n + 1) l v) l' (some (n + 1)) b' (some .computing) with h | h
    · exact absurd h.2.1 hl
    · rw [h.2]; rfl
  rw [h1]
  rcases psihOp_arr call (⟨own, some none, some (n + 1), l⟩ : PsihSt V) l (some (n + 1)) b'' none with h | h
  · rw [h.2.2.2]; rfl
  · exact absurd ⟨rfl, rfl, npAllclose_refl l⟩ h.1

/-- `Psih(N=m)` without scales raises, but only after overwriting the samples and their length: asking for the earlier
scales at length `m` then returns the samples for scale 1. -/
theorem C55_after_error (own n m : ℕ) (l : List ℝ) (b b' : Bool) (v : V) (hm : m + 1 ≠ n) :
    (psihOp call (cachedSt own n l v) .none (some (m + 1)) b none).2 = .error .attributeError ∧
    (psihOp call (psihStep call (cachedSt own n l v) (.psih .none (some (m + 1)) b none)) (.arr l) (some (m + 1)) b' none).2 =
      .ok (some (call .none (m + 1) b)) := by
  have hne : ¬ (cachedSt own n l v).pN = some (psihN (some (m + 1)) (cachedSt own n l v).N) := by
    simp [cachedSt, psihN]; omega
  have h0 : psihOp call (cachedSt own n l v) .none (some (m + 1)) b none =
      (⟨own, some (some (call .none (m + 1) b)), some (m + 1), l⟩, .error .attributeError) := by
    unfold psihOp
    simp only
    rw [if_neg hne]
    rfl
  refine ⟨by rw [h0], ?_⟩
  have h1 : psihStep call (cachedSt own n l v) (.psih .none (some (m + 1)) b none) =
      ⟨own, some (some (call .none (m + 1) b)), some (m + 1), l⟩ := by
    simp only [psihStep]; rw [h0]
  rw [h1]
  rcases psihOp_arr call (⟨own, some (some (call .none (m + 1) b)), some (m + 1), l⟩ : PsihSt V) l (some (m + 1)) b' none
    with h | h
  · rw [h.2.2.2]; rfl
  · exact absurd ⟨rfl, rfl, npAllclose_refl l⟩ h.1

/-- The returned array is the cached one: changing it changes what the next call returns. -/
theorem C55_aliased (own n : ℕ) (l : List ℝ) (v : V) (g : V → V) (b : Bool) :
    (psihOp call (psihStep call (cachedSt own (n + 1) l v) (.edit g)) (.arr l) (some (n + 1)) b none).2 = .ok (some (g v)) := by
  change (psihOp call (⟨own, some (some (g v)), some (n + 1), l⟩ : PsihSt V) (.arr l) (some (n + 1)) b none).2 = _
  rcases psihOp_arr call (⟨own, some (some (g v)), some (n + 1), l⟩ : PsihSt V) l (some (n + 1)) b none with h | h
  · rw [h.2.2.2]; rfl
  · exact absurd ⟨rfl, rfl, npAllclose_refl l⟩ h.1

/-- A constant wavelet of length 2: with `nohalf` the last sample is 1, without it is 1/2. -/
theorem C55_refuted : ¬ C55_full := fun h => by
  let f : WFn := .real fun _ => 1
  have h1 := h f 2 [.psih (.arr [1]) (some 2) true none] [1] (some 2) false
  have h2 := C55_nohalf (fun (s : PScale) (N : ℕ) (b : Bool) => waveletCall f N s.toList b) { N := 2 } [1] 1 true false
    (by simp)
  have h3 : waveletCall f 2 [1] true = waveletCall f 2 [1] false := by
    have := h2.symm.trans h1
    simpa [Spec.askedN, PScale.toList] using this
  have h4 : sampleRow f 2 1 = [1, 1] := by
    have hl : (xifn 1 2).length = 2 := by simp [xifn_length]
    simp only [sampleRow, f, WFn.eval, List.map_const', hl]
    norm_num [List.replicate]
  simp [waveletCall, dropImag, f, h4, halveNyquist] at h3

/-! ## Where it holds -/

/-- Steps of a history without disturbance: `wavelet.N` may be set, `Psih` called on arrays with one and the same `nohalf`,
or without arguments; no exceptions inside, no writing into the returned array. -/
def Spec.Plain (b : Bool) : PsihStep V → Prop
  | .setN _ => True
  | .psih (.arr _) _ b' c => b' = b ∧ c = none
  | .psih .none none _ _ => True
  | _ => False

/-- The cache holds the samples for its key, and the key was asked for. -/
def PsihInv (b : Bool) (A : List ℝ → Prop) (s : PsihSt V) : Prop :=
  (s.pN = none ∧ s.psih = none) ∨ ∃ n l, A l ∧ s.pN = some n ∧ s.ps = l ∧ s.psih = some (some (call (.arr l) n b))

theorem psihInv_step (b : Bool) (A : List ℝ → Prop) (s : PsihSt V) (a : PsihStep V) (ha : Spec.Plain b a)
    (hA : ∀ l N c, a = .psih (.arr l) N b c → A l) (hs : PsihInv call b A s) : PsihInv call b A (psihStep call s a) := by
  cases a with
  | setN n => exact hs
  | edit g => exact ha.elim
  | psih sc N b' c =>
    simp only [psihStep]
    cases sc with
    | num x => cases N <;> exact ha.elim
    | none =>
      cases N with
      | some _ => exact ha.elim
      | none => exact hs
    | arr l =>
      have hb : b' = b ∧ c = none := by cases N <;> exact ha
      obtain ⟨rfl, rfl⟩ := hb
      rcases psihOp_arr call s l N b' none with h | h
      · rw [h.2.2.2]; exact hs
      · rw [h.2, psihCompute_arr]
        exact .inr ⟨_, l, hA l N none rfl, rfl, rfl, rfl⟩

theorem psihInv_run (b : Bool) (A : List ℝ → Prop) (h : List (PsihStep V)) (s : PsihSt V) (hp : ∀ a ∈ h, Spec.Plain b a)
    (hA : ∀ l N c, PsihStep.psih (.arr l) N b c ∈ h → A l) (hs : PsihInv call b A s) :
    PsihInv call b A (psihRun call s h) := by
  induction h generalizing s with
  | nil => exact hs
  | cons a h ih =>
    refine ih _ (fun x hx => hp x (List.mem_cons_of_mem _ hx)) (fun l N c hm => hA l N c (List.mem_cons_of_mem _ hm)) ?_
    exact psihInv_step call b A s a (hp a List.mem_cons_self) (fun l N c e => hA l N c (e ▸ List.mem_cons_self)) hs

/-- **C55** (histories with one `nohalf`, no exceptions inside `Psih`, no writing into the result). The samples returned
are for the length asked and for the scales asked or for scales `allclose` to them that were asked before. -/
theorem C55_tolerance_partial (N0 : ℕ) (h : List (PsihStep V)) (b : Bool) (hp : ∀ a ∈ h, Spec.Plain b a) (l : List ℝ)
    (N : Option ℕ) :
    ∃ l', (psihOp call (psihRun call { N := N0 } h) (.arr l) N b none).2 =
        .ok (some (call (.arr l') (Spec.askedN N (Spec.lastN N0 h)) b)) ∧
      (l' = l ∨ (∃ N' c, PsihStep.psih (.arr l') N' b c ∈ h) ∧ Spec.Within l l') := by
  have hinv := psihInv_run call b (fun l' => ∃ N' c, PsihStep.psih (.arr l') N' b c ∈ h) h { N := N0 } hp
    (fun l' N' c hm => ⟨N', c, hm⟩) (.inl ⟨rfl, rfl⟩)
  have hN := psihRun_N call h { N := N0 }
  rcases psihOp_arr call (psihRun call { N := N0 } h) l N b none with hh | hh
  · rcases hinv with hi | ⟨n, l', hA, h1, h2, h3⟩
    · rw [hi.1] at hh; exact absurd hh.1 (by simp)
    · refine ⟨l', ?_, .inr ⟨hA, (npAllclose_iff _ _).1 (h2 ▸ hh.2.2.1)⟩⟩
      have hn : n = psihN N (psihRun call { N := N0 } h).N := by
        have := h1.symm.trans hh.1; exact Option.some.inj this
      rw [hh.2.2.2, PsihSt.get, h3, ← hN, ← psihN_eq, ← hn]
  · refine ⟨l, ?_, .inl rfl⟩
    rw [hh.2, psihCompute_arr, psihN_eq, hN]

/-- **C55**, exact: if moreover no array asked before is close to, but different from, the one asked now. -/
theorem C55_exact_partial (N0 : ℕ) (h : List (PsihStep V)) (b : Bool) (hp : ∀ a ∈ h, Spec.Plain b a) (l : List ℝ)
    (N : Option ℕ) (hl : ∀ l' N' c, PsihStep.psih (.arr l') N' b c ∈ h → Spec.Within l l' → l' = l) :
    (psihOp call (psihRun call { N := N0 } h) (.arr l) N b none).2 =
      .ok (some (call (.arr l) (Spec.askedN N (Spec.lastN N0 h)) b)) := by
  obtain ⟨l', h1, h2⟩ := C55_tolerance_partial call N0 h b hp l N
  rcases h2 with rfl | ⟨⟨N', c, hm⟩, hc⟩
  · exact h1
  · rw [h1, hl l' N' c hm hc]

/-- `Psih()` returns what the last call returned, also after `wavelet.N` changed. -/
theorem C55_last (s : PsihSt V) (l : List ℝ) (N : Option ℕ) (b b' : Bool) (ns : List ℕ) :
    let r := psihOp call s (.arr l) N b none
    (psihOp call (psihRun call r.1 (ns.map .setN)) .none none b' none).2 = r.2 := by
  intro r
  have hset : ∀ (ns : List ℕ) (t : PsihSt V), (psihRun call t (ns.map .setN)).psih = t.psih := by
    intro ns
    induction ns with
    | nil => intro t; rfl
    | cons n ns ih => intro t; exact (ih _).trans rfl
  have hg : ∀ t : PsihSt V, (psihOp call t .none none b' none).2 = t.get := fun t => rfl
  rw [hg]
  unfold PsihSt.get
  rw [hset]
  rcases psihOp_arr call s l N b none with h | h
  · simp only [r]; rw [h.2.2.2]; rfl
  · simp only [r]; rw [h.2, psihCompute_arr]

/-- `Psih()` before anything was computed raises. -/
theorem C55_nothing (N0 : ℕ) (ns : List ℕ) (b : Bool) :
    (psihOp call (psihRun call { N := N0 } (ns.map .setN)) .none none b none).2 = .error .attributeError := by
  have hset : ∀ (ns : List ℕ) (t : PsihSt V), (psihRun call t (ns.map .setN)).psih = t.psih := by
    intro ns
    induction ns with
    | nil => intro t; rfl
    | cons n ns ih => intro t; exact (ih _).trans rfl
  have hg : ∀ t : PsihSt V, (psihOp call t .none none b none).2 = t.get := fun t => rfl
  rw [hg]
  unfold PsihSt.get
  rw [hset]

/-- The samples of a real wavelet `g`: one row per scale; sample `k` of row `i` is `g` at the scale times `2πk/N`, for `k`
up to `N/2`, and at the scale times `2π(k-N)/N` beyond; with `nohalf=False` the sample `k = N/2` is half of that. Without
scales there is one row, that of scale 1. -/
theorem C55_samples (g : ℝ → ℝ) (N : ℕ) (hN : 0 < N) (sc : PScale) (b : Bool) :
    (waveletCall (.real g) N sc.toList b).length = (match sc with | .arr l => l.length | _ => 1) ∧
    ∀ (i : ℕ) (s : ℝ), (match sc with | .none => i = 0 ∧ s = 1 | .num s' => i = 0 ∧ s = s' | .arr l => l[i]? = some s) →
      ∀ k < N, ((waveletCall (.real g) N sc.toList b).getD i []).getD k 0 =
        ((g (s * ((2 * Real.pi / N) * (if k ≤ N / 2 then (k : ℝ) else (k : ℝ) - N))) *
          (if b = false ∧ 2 * k = N then 1 / 2 else 1) : ℝ) : ℂ) := by
  have hrow : ∀ s : ℝ, ∀ k < N, ((if b then sampleRow (.real g) N s else halveNyquist (sampleRow (.real g) N s))).getD k 0 =
      ((g (s * ((2 * Real.pi / N) * (if k ≤ N / 2 then (k : ℝ) else (k : ℝ) - N))) *
          (if b = false ∧ 2 * k = N then 1 / 2 else 1) : ℝ) : ℂ) := by
    intro s k hk
    have hl : (sampleRow (.real g) N s).length = N := by simp [sampleRow]
    have h0 : ∀ j < N, (sampleRow (.real g) N s).getD j 0 =
        ((g (s * ((2 * Real.pi / N) * (if j ≤ N / 2 then (j : ℝ) else (j : ℝ) - N))) : ℝ) : ℂ) := by
      intro j hj
      rw [List.getD_eq_getElem _ _ (by omega)]
      have hx := xifn_getD 1 N j hj
      rw [List.getD_eq_getElem _ _ (by simpa using hj)] at hx
      simp only [sampleRow, List.getElem_map, WFn.eval, hx]
      congr 3
      split <;> (push_cast; ring)
    cases b with
    | true => simp only [if_true]; rw [h0 k hk]; simp
    | false =>
      simp only [Bool.false_eq_true, if_false, true_and]
      unfold halveNyquist
      rw [hl]
      by_cases hpar : N % 2 = 0
      · rw [if_pos hpar, List.getD_eq_getElem _ _ (by simp [hl]; exact hk), List.getElem_set]
        by_cases hk2 : 2 * k = N
        · rw [if_pos (by omega), if_pos hk2, show N / 2 = k by omega, h0 k hk]
          rw [show N / 2 = k by omega]
          push_cast; ring
        · rw [if_neg (by omega), if_neg hk2, ← List.getD_eq_getElem _ (0 : ℂ) (by omega), h0 k hk, mul_one]
      · rw [if_neg hpar, if_neg (show ¬ 2 * k = N by omega), h0 k hk, mul_one]
  constructor
  · cases sc <;> simp [waveletCall, dropImag, PScale.toList]
  · intro i s hs k hk
    have hget : (sc.toList)[i]? = some s := by
      cases sc with
      | none => obtain ⟨rfl, rfl⟩ := hs; rfl
      | num s' => obtain ⟨rfl, rfl⟩ := hs; rfl
      | arr l => exact hs
    have : (waveletCall (.real g) N sc.toList b).getD i [] =
        if b then sampleRow (.real g) N s else halveNyquist (sampleRow (.real g) N s) := by
      simp only [waveletCall, dropImag, List.getD_eq_getElem?_getD, List.getElem?_map, hget, Option.map_some, Option.getD_some]
    rw [this]
    exact hrow s k hk

/-- Two scales, four samples: the third one of the second row, at the Nyquist frequency, is halved. -/
example : ((waveletCall (.real fun w => w) 4 [1, 2] false).getD 1 []).getD 2 0 = ((Real.pi : ℝ) : ℂ) := by
  refine ((C55_samples (fun w => w) 4 (by norm_num) (.arr [1, 2]) false).2 1 2 rfl 2 (by norm_num)).trans ?_
  congr 1
  norm_num
  ring

/-- A history to which the theorems apply: two lengths, two arrays, in all orders, with changes of `wavelet.N`. -/
example : (psihOp call (psihRun call { N := 8 }
      [.psih (.arr [1, 2]) none false none, .setN 16, .psih .none none true none, .psih (.arr [3]) (some 4) false none])
      (.arr [1, 2]) none false none).2 = .ok (some (call (.arr [1, 2]) 16 false)) := by
  have := C55_exact_partial call 8
      [.psih (.arr [1, 2]) none false none, .setN 16, .psih .none none true none, .psih (.arr [3]) (some 4) false none]
      false (by intro a ha; simp at ha; rcases ha with rfl | rfl | rfl | rfl <;> simp [Spec.Plain]) [1, 2] none
      (by
        intro l' N' c hm hc
        simp at hm
        rcases hm with h | h
        · exact h.1
        · rw [h.1] at hc; exact absurd hc.1 (by simp))
  simpa [Spec.askedN, Spec.lastN] using this

/-- A close but different array, so that `C55_close` applies. -/
example : Spec.Within [1 + 1 / 10 ^ 6] [1] := by
  refine ⟨rfl, fun i ha hb => ?_⟩
  obtain rfl : i = 0 := by simpa using ha
  norm_num

end Ssq
