import Verif.Model.PatThreads
import Mathlib.Logic.Function.Basic

/-!
# C226: the patience of `cwt`, also in several threads
-/
namespace Ssq

/-- The call has returned. -/
def Spec.PatReturned (t : PatThread) : Prop := t.pc = .done

/-- The argument `patience` is accepted: 0, 1, 2, or a tuple of two. -/
def Spec.PatAccepted (a : PatArg) : Prop :=
  (∃ z : ℤ, a = .val (.int z) ∧ (z = 0 ∨ z = 1 ∨ z = 2)) ∨ ∃ p t, a = .tuple [p, t]

/-- The settings asked for by an accepted argument, given those in force. -/
def Spec.patAsked (g : FftSt) : PatArg → FftSt
  | .val v => ⟨v, g.timelimit⟩
  | .tuple [p, t] => ⟨p, t⟩
  | .tuple _ => g

lemma setPatience_accepted (g : FftSt) (a : PatArg) (h : Spec.PatAccepted a) :
    setPatience g a = (Spec.patAsked g a, .ok ()) := by
  rcases h with ⟨z, rfl, hz⟩ | ⟨p, t, rfl⟩
  · simp [setPatience, validatePatience, hz, Spec.patAsked]
  · simp [setPatience, validatePatience, Spec.patAsked]

lemma setPatience_tuple (g : FftSt) (p t : PatV) : (setPatience g (.tuple [p, t])).1 = ⟨p, t⟩ := by
  simp [setPatience, validatePatience]

lemma setPatience_not (g : FftSt) (a : PatArg) (h : ¬ Spec.PatAccepted a) : ∃ e, setPatience g a = (g, .error e) := by
  rcases a with (z | _ | _) | l
  · by_cases hz : z = 0 ∨ z = 1 ∨ z = 2
    · exact absurd (Or.inl ⟨z, rfl, hz⟩) h
    · exact ⟨.typeError, by simp [setPatience, validatePatience, hz]⟩
  · exact ⟨.typeError, rfl⟩
  · exact ⟨.typeError, rfl⟩
  · rcases l with _ | ⟨p, _ | ⟨t, _ | ⟨q, l⟩⟩⟩
    · exact ⟨.valueError, rfl⟩
    · exact ⟨.valueError, rfl⟩
    · exact absurd (Or.inr ⟨p, t, rfl⟩) h
    · exact ⟨.valueError, rfl⟩

/-- **C226** in full: every FFT of a call uses the patience passed to it, and once all calls have returned the settings
are what they were. -/
def C226_full : Prop :=
  ∀ (calls : ℕ → PatCall) (g : FftSt) (sched : List ℕ), (∀ i, Spec.PatAccepted (calls i).patience) →
    (∀ i, ∀ u ∈ ((patRun calls g sched).th i).used, u = Spec.patAsked g (calls i).patience) ∧
    ((∀ i ∈ sched, Spec.PatReturned ((patRun calls g sched).th i)) → (patRun calls g sched).glob = g)

/-- Two calls with patience 1 and 2 in two threads: the first takes its inverse FFT with the second's patience, and in
the end the setting is 1 instead of 0, though both have returned. -/
theorem C226_threads :
    let calls : ℕ → PatCall := fun i => if i = 0 then ⟨.val (.int 1), 1⟩ else ⟨.val (.int 2), 1⟩
    let s := patRun calls ⟨.int 0, .none⟩ [0, 0, 0, 1, 1, 1, 0, 0, 0, 1, 1, 1]
    (s.th 0).pc = .done ∧ (s.th 1).pc = .done ∧ s.glob = ⟨.int 1, .none⟩ ∧
      (s.th 0).used = [⟨.int 0, .none⟩, ⟨.int 2, .none⟩] ∧ (s.th 1).used = [⟨.int 1, .none⟩, ⟨.int 0, .none⟩] := by
  simp [patRun, PatSys.step, patStep, setPatience, validatePatience, Function.update]

/-- A single call with patience 1 takes the FFT of the signal with the patience in force before, 0. -/
theorem C226_refuted : ¬ C226_full := by
  intro h
  have := (h (fun _ => ⟨.val (.int 1), 1⟩) ⟨.int 0, .none⟩ [0] fun _ => .inl ⟨1, rfl, by simp⟩).1 0 ⟨.int 0, .none⟩
    (by simp [patRun, PatSys.step, patStep])
  simp [Spec.patAsked] at this

/-- The claim about the settings alone, which is false in threads. -/
def C226_restored_full : Prop :=
  ∀ (calls : ℕ → PatCall) (g : FftSt) (sched : List ℕ), (∀ i, Spec.PatAccepted (calls i).patience) →
    (∀ i ∈ sched, Spec.PatReturned ((patRun calls g sched).th i)) → (patRun calls g sched).glob = g

theorem C226_restored_refuted : ¬ C226_restored_full := by
  intro h
  obtain ⟨h0, h1, hg, -⟩ := C226_threads
  have := h (fun i => if i = 0 then ⟨.val (.int 1), 1⟩ else ⟨.val (.int 2), 1⟩) ⟨.int 0, .none⟩
    [0, 0, 0, 1, 1, 1, 0, 0, 0, 1, 1, 1]
    (fun i => by
      by_cases hi : i = 0
      · exact .inl ⟨1, by simp [hi], by simp⟩
      · exact .inl ⟨2, by simp [hi], by simp⟩)
    (fun i hi => by
      simp only [List.mem_cons, List.not_mem_nil, or_false] at hi
      have : i = 0 ∨ i = 1 := by omega
      rcases this with rfl | rfl
      · exact h0
      · exact h1)
  rw [hg] at this
  simp at this

/-! ## One call at a time -/

/-- Steps of thread `i` alone. -/
lemma step_th {calls : ℕ → PatCall} {s : PatSys} {i : ℕ} :
    (PatSys.step calls s i).th i = (patStep (calls i) s.glob (s.th i)).2 ∧
      (PatSys.step calls s i).glob = (patStep (calls i) s.glob (s.th i)).1 ∧
      ∀ j, j ≠ i → (PatSys.step calls s i).th j = s.th j := by
  refine ⟨by simp [PatSys.step], rfl, fun j hj => by simp [PatSys.step, hj]⟩

/-- `k` steps of a call on its own. -/
def patIter (c : PatCall) : ℕ → FftSt × PatThread → FftSt × PatThread
  | 0, x => x
  | k + 1, x => patIter c k (patStep c x.1 x.2)

lemma patIter_add (c : PatCall) (a b : ℕ) (x : FftSt × PatThread) : patIter c (a + b) x = patIter c b (patIter c a x) := by
  induction a generalizing x with
  | zero => simp [patIter]
  | succ a ih => rw [Nat.succ_add]; exact ih _

lemma foldl_replicate (calls : ℕ → PatCall) (i : ℕ) (k : ℕ) (s : PatSys) :
    ((List.replicate k i).foldl (PatSys.step calls) s).glob = (patIter (calls i) k (s.glob, s.th i)).1 ∧
    ((List.replicate k i).foldl (PatSys.step calls) s).th i = (patIter (calls i) k (s.glob, s.th i)).2 ∧
    ∀ j, j ≠ i → ((List.replicate k i).foldl (PatSys.step calls) s).th j = s.th j := by
  induction k generalizing s with
  | zero => exact ⟨rfl, rfl, fun _ _ => rfl⟩
  | succ k ih =>
    rw [List.replicate_succ, List.foldl_cons]
    obtain ⟨h1, h2, h3⟩ := ih (PatSys.step calls s i)
    obtain ⟨e1, e2, e3⟩ := step_th (calls := calls) (s := s) (i := i)
    rw [e1, e2] at h1 h2
    exact ⟨h1, h2, fun j hj => (h3 j hj).trans (e3 j hj)⟩

lemma patIter_inverse (c : PatCall) (k : ℕ) (g : FftSt) (t : PatThread) (h : t.pc = .inverse k) :
    patIter c k (g, t) = (g, { t with pc := .inverse 0, used := t.used ++ List.replicate k g }) := by
  induction k generalizing t with
  | zero =>
    simp only [patIter, List.replicate_zero, List.append_nil]
    rw [← h]
  | succ k ih =>
    have e : patStep c g t = (g, { t with pc := .inverse k, used := t.used ++ [g] }) := by
      unfold patStep
      rw [h]
    show patIter c k (patStep c g t) = _
    rw [e, ih _ rfl]
    simp [List.replicate_succ, List.append_assoc]

lemma patIter_done (c : PatCall) (k : ℕ) (g : FftSt) (t : PatThread) (h : t.pc = .done ∨ ∃ e, t.pc = .failed e) :
    patIter c k (g, t) = (g, t) := by
  induction k with
  | zero => rfl
  | succ k ih =>
    have e : patStep c g t = (g, t) := by
      unfold patStep
      rcases h with h | ⟨e, h⟩ <;> rw [h]
    show patIter c k (patStep c g t) = _
    rw [e, ih]

lemma patIter_whole (c : PatCall) (g : FftSt) (k : ℕ) (hk : c.inverse + 5 ≤ k) :
    (patIter c k (g, {})).1 = g ∧
    (Spec.PatAccepted c.patience → (patIter c k (g, {})).2.pc = .done ∧
      (patIter c k (g, {})).2.used = g :: List.replicate c.inverse (Spec.patAsked g c.patience)) ∧
    (¬ Spec.PatAccepted c.patience → (∃ e, (patIter c k (g, {})).2.pc = .failed e) ∧ (patIter c k (g, {})).2.used = [g]) := by
  obtain ⟨r, rfl⟩ : ∃ r, k = 3 + (c.inverse + (2 + r)) := ⟨k - c.inverse - 5, by omega⟩
  rw [patIter_add]
  by_cases ha : Spec.PatAccepted c.patience
  · have e3 : patIter c 3 (g, {}) = (Spec.patAsked g c.patience, ⟨.inverse c.inverse, g, [g]⟩) := by
      simp [patIter, patStep, setPatience_accepted g _ ha]
    rw [e3, patIter_add, patIter_inverse c c.inverse _ _ rfl, patIter_add]
    have e2 : ∀ (G : FftSt) (u : List FftSt), patIter c 2 (G, ⟨.inverse 0, g, u⟩) = (g, ⟨.done, g, u⟩) := by
      intro G u
      simp only [patIter, patStep, setPatience_tuple]
    rw [e2, patIter_done c r g _ (Or.inl rfl)]
    exact ⟨rfl, fun _ => ⟨rfl, rfl⟩, fun h => absurd ha h⟩
  · obtain ⟨e, he⟩ := setPatience_not g _ ha
    have e3 : patIter c 3 (g, {}) = (g, ⟨.failed e, g, [g]⟩) := by
      simp [patIter, patStep, he]
    rw [e3, patIter_done c _ g _ (Or.inr ⟨e, rfl⟩)]
    exact ⟨rfl, fun h => absurd h ha, fun _ => ⟨⟨e, rfl⟩, rfl⟩⟩

/-- **C226**, one call after another (each thread runs to its end before the next starts): the settings are as before
after every one of them, also of those that raise because their `patience` is refused; the FFT of the signal uses the
settings in force, and all inverse FFTs those asked for. Missing: the FFT of the signal with the patience asked for, and
calls that overlap, of which it is false. -/
theorem C226_sequential_partial (calls : ℕ → PatCall) (g : FftSt) (order : List ℕ) (ho : order.Nodup) (k : ℕ → ℕ)
    (hk : ∀ i, (calls i).inverse + 5 ≤ k i) :
    let s := patRun calls g (order.flatMap fun i => List.replicate (k i) i)
    s.glob = g ∧ ∀ i ∈ order,
      (Spec.PatAccepted (calls i).patience → Spec.PatReturned (s.th i) ∧
        (s.th i).used = g :: List.replicate (calls i).inverse (Spec.patAsked g (calls i).patience)) ∧
      (¬ Spec.PatAccepted (calls i).patience → (∃ e, (s.th i).pc = .failed e) ∧ (s.th i).used = [g]) := by
  have main : ∀ (order : List ℕ), order.Nodup → ∀ s : PatSys, s.glob = g → (∀ i ∈ order, s.th i = {}) →
      ((order.flatMap fun i => List.replicate (k i) i).foldl (PatSys.step calls) s).glob = g ∧
      (∀ j, j ∉ order → ((order.flatMap fun i => List.replicate (k i) i).foldl (PatSys.step calls) s).th j = s.th j) ∧
      ∀ i ∈ order, ((order.flatMap fun i => List.replicate (k i) i).foldl (PatSys.step calls) s).th i =
        (patIter (calls i) (k i) (g, {})).2 := by
    intro order
    induction order with
    | nil => exact fun _ s hs _ => ⟨hs, fun _ _ => rfl, by simp⟩
    | cons a l ih =>
      intro hn s hs hth
      obtain ⟨hal, hl⟩ := List.nodup_cons.1 hn
      rw [List.flatMap_cons, List.foldl_append]
      obtain ⟨h1, h2, h3⟩ := foldl_replicate calls a (k a) s
      rw [hs, hth a (by simp)] at h1 h2
      rw [(patIter_whole (calls a) g (k a) (hk a)).1] at h1
      obtain ⟨i1, i2, i3⟩ := ih hl ((List.replicate (k a) a).foldl (PatSys.step calls) s) h1 (by
        intro i hi
        rw [h3 i (fun h => hal (h ▸ hi))]
        exact hth i (by simp [hi]))
      refine ⟨i1, ?_, ?_⟩
      · intro j hj
        simp only [List.mem_cons, not_or] at hj
        rw [i2 j hj.2, h3 j hj.1]
      · intro i hi
        rcases List.mem_cons.1 hi with rfl | hi
        · rw [i2 i hal, h2]
        · exact i3 i hi
  obtain ⟨m1, -, m3⟩ := main order ho ⟨g, fun _ => {}⟩ rfl fun _ _ => rfl
  refine ⟨m1, fun i hi => ?_⟩
  have e : (patRun calls g (order.flatMap fun i => List.replicate (k i) i)).th i = (patIter (calls i) (k i) (g, {})).2 :=
    m3 i hi
  rw [e]
  exact (patIter_whole (calls i) g (k i) (hk i)).2

/-! ## Several threads -/

lemma run_inv (calls : ℕ → PatCall) (G : FftSt → Prop) (T : ℕ → PatThread → Prop) (g : FftSt) (hg : G g)
    (ht : ∀ i, T i {}) (hs : ∀ i g t, G g → T i t → G (patStep (calls i) g t).1 ∧ T i (patStep (calls i) g t).2)
    (sched : List ℕ) : G (patRun calls g sched).glob ∧ ∀ i, T i ((patRun calls g sched).th i) := by
  unfold patRun
  have : ∀ s : PatSys, G s.glob → (∀ i, T i (s.th i)) →
      G (sched.foldl (PatSys.step calls) s).glob ∧ ∀ i, T i ((sched.foldl (PatSys.step calls) s).th i) := by
    induction sched with
    | nil => exact fun s h1 h2 => ⟨h1, h2⟩
    | cons a l ih =>
      intro s h1 h2
      rw [List.foldl_cons]
      obtain ⟨e1, e2, e3⟩ := step_th (calls := calls) (s := s) (i := a)
      obtain ⟨k1, k2⟩ := hs a s.glob (s.th a) h1 (h2 a)
      refine ih _ (by rw [e2]; exact k1) fun i => ?_
      by_cases hi : i = a
      · subst hi
        rw [e1]
        exact k2
      · rw [e3 i hi]
        exact h2 i
  exact this _ hg ht

/-- In any schedule of any calls: if every call asks for the settings in force (as with the default `patience=0` and an
unchanged `FFT_GLOBAL`), they are in force all the time and used by every FFT. -/
theorem C226_same_partial (calls : ℕ → PatCall) (g : FftSt)
    (ha : ∀ i, Spec.PatAccepted (calls i).patience ∧ Spec.patAsked g (calls i).patience = g) (sched : List ℕ) :
    (patRun calls g sched).glob = g ∧ ∀ i, ∀ u ∈ ((patRun calls g sched).th i).used, u = g := by
  have := run_inv calls (fun h => h = g)
    (fun _ t => (∀ u ∈ t.used, u = g) ∧ (t.pc ≠ .forward → t.pc ≠ .save → t.orig = g)) g rfl
    (fun _ => ⟨by simp, by simp⟩)
    (by
      rintro i h t rfl ⟨h1, h2⟩
      obtain ⟨a1, a2⟩ := ha i
      obtain ⟨pc, orig, used⟩ := t
      simp only at h1 h2
      cases pc with
      | forward =>
        refine ⟨rfl, ?_, by simp [patStep]⟩
        intro u hu
        simp only [patStep, List.mem_append, List.mem_singleton] at hu
        exact hu.elim (h1 u) id
      | save => exact ⟨rfl, h1, fun _ _ => rfl⟩
      | set =>
        simp only [patStep, setPatience_accepted _ _ a1]
        exact ⟨a2, h1, fun _ _ => h2 (by simp) (by simp)⟩
      | inverse k =>
        cases k with
        | zero => exact ⟨rfl, h1, fun _ _ => h2 (by simp) (by simp)⟩
        | succ k =>
          refine ⟨rfl, ?_, fun _ _ => h2 (by simp) (by simp)⟩
          intro u hu
          simp only [patStep, List.mem_append, List.mem_singleton] at hu
          exact hu.elim (h1 u) id
      | restore =>
        have ho := h2 (by simp) (by simp)
        subst ho
        exact ⟨by simp only [patStep, setPatience_tuple], h1, fun _ _ => rfl⟩
      | done => exact ⟨rfl, h1, h2⟩
      | failed e => exact ⟨rfl, h1, h2⟩) sched
  exact ⟨this.1, fun i => (this.2 i).1⟩

/-- In any schedule of any calls, whether or not they raise, the patience in force and that of every FFT is the one at
the start or the one of some call. -/
theorem C226_values (calls : ℕ → PatCall) (g : FftSt) (sched : List ℕ) :
    let ok : FftSt → Prop := fun u => u.patience = g.patience ∨
      ∃ i, (calls i).patience = .val u.patience ∨ ∃ t, (calls i).patience = .tuple [u.patience, t]
    ok (patRun calls g sched).glob ∧ ∀ i, ∀ u ∈ ((patRun calls g sched).th i).used, ok u := by
  intro ok
  have := run_inv calls ok
    (fun _ t => (∀ u ∈ t.used, ok u) ∧ (t.pc ≠ .forward → t.pc ≠ .save → ok t.orig)) g (Or.inl rfl)
    (fun _ => ⟨by simp, by simp⟩)
    (by
      rintro i h t hh ⟨h1, h2⟩
      obtain ⟨pc, orig, used⟩ := t
      simp only at h1 h2
      cases pc with
      | forward =>
        refine ⟨hh, ?_, by simp [patStep]⟩
        intro u hu
        simp only [patStep, List.mem_append, List.mem_singleton] at hu
        exact hu.elim (h1 u) (fun e => e ▸ hh)
      | save => exact ⟨hh, h1, fun _ _ => hh⟩
      | set =>
        by_cases a1 : Spec.PatAccepted (calls i).patience
        · simp only [patStep, setPatience_accepted _ _ a1]
          refine ⟨?_, h1, fun _ _ => h2 (by simp) (by simp)⟩
          rcases a1 with ⟨z, hz, -⟩ | ⟨p, t, hp⟩
          · rw [hz]; exact Or.inr ⟨i, Or.inl hz⟩
          · rw [hp]; exact Or.inr ⟨i, Or.inr ⟨t, hp⟩⟩
        · obtain ⟨e, he⟩ := setPatience_not h _ a1
          simp only [patStep, he]
          exact ⟨hh, h1, fun _ _ => h2 (by simp) (by simp)⟩
      | inverse k =>
        cases k with
        | zero => exact ⟨hh, h1, fun _ _ => h2 (by simp) (by simp)⟩
        | succ k =>
          refine ⟨hh, ?_, fun _ _ => h2 (by simp) (by simp)⟩
          intro u hu
          simp only [patStep, List.mem_append, List.mem_singleton] at hu
          exact hu.elim (h1 u) (fun e => e ▸ hh)
      | restore =>
        have ho := h2 (by simp) (by simp)
        refine ⟨?_, h1, fun _ _ => ho⟩
        simp only [patStep, setPatience_tuple]
        exact ho
      | done => exact ⟨hh, h1, h2⟩
      | failed e => exact ⟨hh, h1, h2⟩) sched
  exact ⟨this.1, fun i => (this.2 i).1⟩

/-- The hypotheses of `C226_same_partial` are met by the defaults. -/
example : Spec.PatAccepted (.val (.int 0)) ∧ Spec.patAsked ⟨.int 0, .int 120⟩ (.val (.int 0)) = ⟨.int 0, .int 120⟩ :=
  ⟨.inl ⟨0, rfl, by simp⟩, rfl⟩

/-- Three calls one after the other, the second refused. -/
example :
    let calls : ℕ → PatCall := fun i => if i = 0 then ⟨.val (.int 1), 1⟩ else if i = 1 then ⟨.val .none, 2⟩ else
      ⟨.tuple [.int 2, .int 60], 2⟩
    let s := patRun calls ⟨.int 0, .int 120⟩ ([2, 1, 0].flatMap fun i => List.replicate 7 i)
    s.glob = ⟨.int 0, .int 120⟩ ∧ (s.th 1).used = [⟨.int 0, .int 120⟩] ∧
      (s.th 2).used = [⟨.int 0, .int 120⟩, ⟨.int 2, .int 60⟩, ⟨.int 2, .int 60⟩] := by
  simp [patRun, PatSys.step, patStep, setPatience, validatePatience, Function.update]

end Ssq
