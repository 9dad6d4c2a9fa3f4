import Verif.Model.FftState

/-!
# C56: what `cwt` leaves behind in the wavelet; C58: the patience setting
-/
namespace Ssq

/-! ## C58: the setter -/

/-- C58, setter: it either raises and changes nothing, or leaves one of the patience values 0, 1, 2. -/
def C58_full : Prop := ∀ (s : FftSt) (a : PatArg),
  ((setPatience s a).1 = s ∧ ∃ e, (setPatience s a).2 = .error e) ∨
  ((setPatience s a).2 = .ok () ∧ ∃ z, (setPatience s a).1.patience = .int z ∧ (z = 0 ∨ z = 1 ∨ z = 2))

/-- Tuples are not looked into. -/
theorem C58_refuted : ¬ C58_full := fun h => by
  rcases h ⟨.int 0, .int 120⟩ (.tuple [.int 7, .int 60]) with ⟨_, e, he⟩ | ⟨_, z, hz, h3⟩
  · simp [setPatience, validatePatience] at he
  · simp [setPatience, validatePatience] at hz; omega

/-- The setter is atomic: an exception leaves both settings alone; otherwise an int sets the patience only, and a tuple
sets both. -/
theorem C58_atomic (s : FftSt) (a : PatArg) :
    ((setPatience s a).1 = s ∧ ∃ e, (setPatience s a).2 = .error e) ∨
    ((setPatience s a).2 = .ok () ∧ (∃ z, a = .val (.int z) ∧ (setPatience s a).1 = ⟨.int z, s.timelimit⟩) ∨
      (setPatience s a).2 = .ok () ∧ ∃ p t, a = .tuple [p, t] ∧ (setPatience s a).1 = ⟨p, t⟩) := by
  rcases a with (z | _ | _) | l
  · by_cases h : z = 0 ∨ z = 1 ∨ z = 2
    · exact .inr (.inl (by simp [setPatience, validatePatience, h]))
    · exact .inl (by simp [setPatience, validatePatience, h])
  · exact .inl (by simp [setPatience, validatePatience])
  · exact .inl (by simp [setPatience, validatePatience])
  · rcases l with _ | ⟨p, _ | ⟨t, _ | ⟨q, l⟩⟩⟩
    · exact .inl (by simp [setPatience, validatePatience])
    · exact .inl (by simp [setPatience, validatePatience])
    · exact .inr (.inr (by simp [setPatience, validatePatience]))
    · exact .inl (by simp [setPatience, validatePatience])

/-- Which values are accepted, and which exception the others get. -/
theorem C58_accepted (s : FftSt) :
    (∀ z : ℤ, (setPatience s (.val (.int z))).2 = if z = 0 ∨ z = 1 ∨ z = 2 then .ok () else .error .typeError) ∧
    (setPatience s (.val .none)).2 = .error .typeError ∧ (setPatience s (.val .other)).2 = .error .typeError ∧
    (∀ l, (setPatience s (.tuple l)).2 = if l.length = 2 then .ok () else .error .valueError) := by
  refine ⟨fun z => ?_, rfl, rfl, fun l => ?_⟩
  · by_cases h : z = 0 ∨ z = 1 ∨ z = 2 <;> simp [setPatience, validatePatience, h]
  · rcases l with _ | ⟨p, _ | ⟨t, _ | ⟨q, l⟩⟩⟩ <;> simp [setPatience, validatePatience]

/-- **C58** (ints, and tuples that start with a valid patience): any history of settings, failing ones included, leaves a
valid patience. -/
theorem C58_history_partial (s : FftSt) (h : List PatArg) (hs : ∃ z, s.patience = .int z ∧ (z = 0 ∨ z = 1 ∨ z = 2))
    (ht : ∀ p l, PatArg.tuple (p :: l) ∈ h → ∃ z, p = .int z ∧ (z = 0 ∨ z = 1 ∨ z = 2)) :
    ∃ z, (h.foldl (fun s a => (setPatience s a).1) s).patience = .int z ∧ (z = 0 ∨ z = 1 ∨ z = 2) := by
  induction h generalizing s with
  | nil => exact hs
  | cons a h ih =>
    refine ih _ ?_ fun p l hm => ht p l (List.mem_cons_of_mem _ hm)
    rcases C58_atomic s a with ⟨h1, _⟩ | ⟨h1, z, rfl, h2⟩ | ⟨h1, p, t, rfl, h2⟩
    · simp only [h1]; exact hs
    · simp only [h2]
      refine ⟨z, rfl, ?_⟩
      rw [(C58_accepted s).1] at h1
      by_contra hz
      rw [if_neg hz] at h1
      cases h1
    · simp only [h2]
      exact ht p [t] List.mem_cons_self

/-! ## C56 and C58: `cwt` -/

variable (pyfftw : Bool) (planner : PatArg → Py Unit)

/-- C56 in full: however `cwt` ends, the wavelet's length and the FFT settings are what they were. -/
def C56_full : Prop := ∀ (pyfftw : Bool) (planner : PatArg → Py Unit) (s : CwtSt) (Npad : ℕ) (a : PatArg)
  (c : Option CwtCrash), (cwtState pyfftw planner s Npad a c).1 = s

/-- `cwt(x, wavelet, patience=1)` without pyfftw. -/
theorem C56_refuted : ¬ C56_full := fun h => by
  have := h false (fun _ => .ok ()) ⟨100, ⟨.int 0, .int 120⟩⟩ 256 (.val (.int 1)) none
  simp [cwtState, cwtState.fftCall, processPatience, setPatience, validatePatience, bind, Except.bind] at this

/-- **C56, C58** on normal return: the wavelet's length, the patience and the time limit are restored exactly — whatever
they were. -/
theorem C56_return_partial (s : CwtSt) (Npad : ℕ) (a : PatArg) (c : Option CwtCrash)
    (h : (cwtState pyfftw planner s Npad a c).2 = .ok ()) : (cwtState pyfftw planner s Npad a c).1 = s := by
  revert h
  unfold cwtState
  by_cases hA : c = some .args
  · simp [hA]
  rw [if_neg hA]
  rcases hF : cwtState.fftCall pyfftw planner s.fft with e' | u
  · simp
  dsimp only
  by_cases hS : c = some .scales
  · simp [hS]
  rw [if_neg hS]
  rcases hp : setPatience s.fft a with ⟨f, e' | u⟩
  · simp
  dsimp only
  by_cases hC : c = some .compute
  · simp [hC]
  rw [if_neg hC]
  rcases hF2 : cwtState.fftCall pyfftw planner f with e' | u'
  · simp
  by_cases hP : c = some .post
  · simp [hP, setPatience, validatePatience]
  · simp [setPatience, validatePatience, hP]

/-- The exception came before `cwt` touched anything, or after it restored everything. -/
def Spec.Untouched (s : CwtSt) (a : PatArg) (c : Option CwtCrash) : Prop :=
  c = some .args ∨ c = some .scales ∨ cwtState.fftCall pyfftw planner s.fft ≠ .ok () ∨
    (c = some .post ∧ (setPatience s.fft a).2 = .ok () ∧ cwtState.fftCall pyfftw planner (setPatience s.fft a).1 = .ok ())

/-- What an exception leaves behind, exactly: nothing has changed if it came from argument processing, the first FFT, the
choice of scales, or after the restoration; otherwise the wavelet has the padded length and the settings are those the
setter made of the `patience` argument. -/
theorem C56_exception (s : CwtSt) (Npad : ℕ) (a : PatArg) (c : Option CwtCrash) (e : PyErr)
    (h : (cwtState pyfftw planner s Npad a c).2 = .error e) :
    (Spec.Untouched pyfftw planner s a c → (cwtState pyfftw planner s Npad a c).1 = s) ∧
    (¬ Spec.Untouched pyfftw planner s a c → (cwtState pyfftw planner s Npad a c).1 = ⟨Npad, (setPatience s.fft a).1⟩) := by
  revert h
  unfold Spec.Untouched cwtState
  by_cases hA : c = some .args
  · simp [hA]
  rw [if_neg hA]
  rcases hF : cwtState.fftCall pyfftw planner s.fft with e' | u
  · simp [hA]
  dsimp only
  by_cases hS : c = some .scales
  · simp [hS]
  rw [if_neg hS]
  rcases hp : setPatience s.fft a with ⟨f, e' | u⟩
  · simp [hA, hS]
  dsimp only
  by_cases hC : c = some .compute
  · simp [hC]
  rw [if_neg hC]
  rcases hF2 : cwtState.fftCall pyfftw planner f with e' | u'
  · simp [hA, hS]
  by_cases hP : c = some .post
  · simp [hP, setPatience, validatePatience]
  · simp [setPatience, validatePatience, hP]

/-- C58, `cwt`: without pyfftw, `cwt(..., patience=1)` raises ValueError and leaves that patience in force. -/
theorem C58_cwt_left (s : CwtSt) (Npad : ℕ) (h0 : s.fft.patience = .int 0) :
    cwtState false planner s Npad (.val (.int 1)) none = (⟨Npad, ⟨.int 1, s.fft.timelimit⟩⟩, .error .valueError) := by
  simp [cwtState, cwtState.fftCall, processPatience, h0, setPatience, validatePatience, bind, Except.bind]

/-- And from then on every `cwt` of the session raises, whatever its arguments, and cannot restore the setting. -/
theorem C58_stuck (s : CwtSt) (h1 : s.fft.patience ≠ .int 0) (calls : List (ℕ × PatArg × Option CwtCrash)) :
    let run := fun (s : CwtSt) (k : ℕ × PatArg × Option CwtCrash) => (cwtState false planner s k.1 k.2.1 k.2.2).1
    calls.foldl run s = s ∧ ∀ k : ℕ × PatArg × Option CwtCrash, (cwtState false planner (calls.foldl run s) k.1 k.2.1 k.2.2).2 ≠ .ok () := by
  intro run
  have hstep : ∀ k : ℕ × PatArg × Option CwtCrash, (cwtState false planner s k.1 k.2.1 k.2.2).1 = s ∧
      (cwtState false planner s k.1 k.2.1 k.2.2).2 ≠ .ok () := by
    intro k
    have hf : cwtState.fftCall false planner s.fft = .error .valueError := by
      unfold cwtState.fftCall processPatience
      simp only [Option.getD_none]
      rcases hp : s.fft.patience with z | _ | _
      · by_cases hz : z = 0
        · exact absurd (by rw [hp, hz]) h1
        · simp [hz, bind, Except.bind]
      · rfl
      · rfl
    unfold cwtState
    rw [hf]
    split_ifs <;> simp
  have hfold : calls.foldl run s = s := by
    induction calls with
    | nil => rfl
    | cons k calls ih => rw [List.foldl_cons, show run s k = s from (hstep k).1]; exact ih
  exact ⟨hfold, fun k => by rw [hfold]; exact (hstep k).2⟩

/-- A normal return with another patience and a padded length. -/
example : (cwtState true (fun _ => .ok ()) ⟨100, ⟨.int 1, .int 120⟩⟩ 256 (.tuple [.int 2, .int 60]) none).2 = .ok () := by
  simp [cwtState, cwtState.fftCall, processPatience, setPatience, validatePatience, bind, Except.bind]

example : C58_history_partial ⟨.int 0, .int 120⟩ [.val (.int 7), .tuple [.int 2, .none], .tuple []] ⟨0, rfl, by simp⟩
    (by intro p l h; simp at h; exact ⟨2, h.1, by simp⟩) = ⟨2, rfl, by simp⟩ := rfl

end Ssq
