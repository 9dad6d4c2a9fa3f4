import Verif.Model.Wisdom
import Mathlib.Tactic.Common

/-!
# C124: 'wisdom is only expansive'
-/
namespace Ssq

variable {P : Type}

namespace Spec

/-- A plan is found in the file of its precision. -/
def Stored (w : WWorld P) (p : WPrec) (a : P) : Prop := ∃ s, w.disk p = some s ∧ a ∈ s

/-- No process is saving. -/
def Quiet (w : WWorld P) : Prop := ∀ i s, w.procs i = some s → s.pc = .idle ∨ s.pc = .load32 ∨ s.pc = .load64

/-- No process is running. -/
def Off (w : WWorld P) : Prop := ∀ i, w.procs i = none

/-- A process starts only if no other is running. -/
def OneByOne (w : WWorld P) (a : WAct P) : Prop := ∀ i, a = .start i → Off w

/-- No process ends while it saves. -/
def NoneKilled (w : WWorld P) (a : WAct P) : Prop :=
  ∀ i s, a = .stop i → w.procs i = some s → s.pc = .idle ∨ s.pc = .load32 ∨ s.pc = .load64

end Spec
open Spec

/-- The claim: 'wisdom is only expansive' (ssqueezepy/utils/fft_utils.py:102-110), for histories of a kind. -/
def ExpansiveFor (P : Type) (allowed : WWorld P → WAct P → Prop) : Prop :=
  ∀ w0 w1 w2 : WWorld P, Off w0 → WRun allowed w0 w1 → Quiet w1 → WRun allowed w1 w2 → Quiet w2 → ∀ p a, Stored w1 p a → Stored w2 p a

/-- The claim for all histories. -/
def C124_full : Prop := ∀ P : Type, ExpansiveFor P fun _ _ => True

theorem stored_iff (w : WWorld P) (p : WPrec) (a : P) : Stored w p a ↔ a ∈ wRead (w.disk p) := by
  unfold Stored wRead
  cases w.disk p <;> simp

/-- What holds of the running process, where files held at least `B` before. -/
def WInv (B : WPrec → Set P) (w : WWorld P) (s : WProc P) : Prop :=
  let D := fun p => wRead (w.disk p)
  match s.pc with
  | .load32 => ∀ p, B p ⊆ D p
  | .load64 => (∀ p, B p ⊆ D p) ∧ D .single ⊆ s.mem .single
  | .idle => ∀ p, B p ⊆ D p ∧ D p ⊆ s.mem p
  | .exported => ∀ p, B p ⊆ D p ∧ D p ⊆ s.buf p ∧ s.buf p ⊆ s.mem p
  | .opened32 => B .single ⊆ s.buf .single ∧ B .double ⊆ D .double ∧ (∀ p, D p ⊆ s.buf p) ∧ ∀ p, s.buf p ⊆ s.mem p
  | .wrote32 => (∀ p, B p ⊆ D p) ∧ (∀ p, D p ⊆ s.buf p) ∧ ∀ p, s.buf p ⊆ s.mem p
  | .opened64 => B .single ⊆ D .single ∧ B .double ⊆ s.buf .double ∧ (∀ p, D p ⊆ s.buf p) ∧ ∀ p, s.buf p ⊆ s.mem p

/-- At most one process, and `WInv` of it; if there is none the files hold `B`. -/
def WOk (B : WPrec → Set P) (w : WWorld P) : Prop :=
  (Off w ∧ ∀ p, B p ⊆ wRead (w.disk p)) ∨ ∃ i s, w.procs i = some s ∧ (∀ j, j ≠ i → w.procs j = none) ∧ WInv B w s

theorem wAt_some {w w' : WWorld P} {i : ℕ} {c : WPc} {k : WProc P → WWorld P} (h : wAt w i c k = some w') :
    ∃ s, w.procs i = some s ∧ s.pc = c ∧ w' = k s := by
  unfold wAt at h
  split at h
  · split at h
    · exact ⟨_, ‹_›, ‹_›, by simpa using h.symm⟩
    · cases h
  · cases h

theorem WOk.at {B : WPrec → Set P} {w : WWorld P} (h : WOk B w) {i : ℕ} {s : WProc P} (hi : w.procs i = some s) :
    (∀ j, j ≠ i → w.procs j = none) ∧ WInv B w s := by
  rcases h with ⟨h, -⟩ | ⟨j, t, ht, ho, hinv⟩
  · rw [h i] at hi; cases hi
  · by_cases e : i = j
    · subst e; rw [ht] at hi; cases hi; exact ⟨ho, hinv⟩
    · rw [ho i e] at hi; cases hi

theorem wOk_set {B : WPrec → Set P} {w : WWorld P} {i : ℕ} {s : WProc P} (ho : ∀ j, j ≠ i → w.procs j = none)
    (hinv : WInv B w s) : WOk B (w.setProc i (some s)) :=
  Or.inr ⟨i, s, by simp [WWorld.setProc], fun j hj => by simp [WWorld.setProc, Function.update_of_ne hj, ho j hj], hinv⟩

theorem wOk_setFile {B : WPrec → Set P} {w : WWorld P} {i : ℕ} {s : WProc P} {p : WPrec} {f : Option (Set P)}
    (ho : ∀ j, j ≠ i → w.procs j = none) (hinv : WInv B ((w.setProc i (some s)).setFile p f) s) :
    WOk B ((w.setProc i (some s)).setFile p f) :=
  Or.inr ⟨i, s, by simp [WWorld.setProc, WWorld.setFile],
    fun j hj => by simp [WWorld.setProc, WWorld.setFile, Function.update_of_ne hj, ho j hj], hinv⟩

theorem wOk_step {B : WPrec → Set P} {w w' : WWorld P} {a : WAct P} (h : WOk B w) (h1 : OneByOne w a) (h2 : NoneKilled w a)
    (hs : wStep w a = some w') : WOk B w' := by
  cases a with
  | start i =>
    have hoff := h1 i rfl
    simp only [wStep, hoff i] at hs
    cases hs
    refine wOk_set (fun j _ => hoff j) ?_
    rcases h with ⟨-, h⟩ | ⟨j, t, ht, -⟩
    · exact h
    · rw [hoff j] at ht; cases ht
  | reload i =>
    obtain ⟨s, hi, hpc, rfl⟩ := wAt_some hs
    obtain ⟨ho, hinv⟩ := h.at hi
    refine wOk_set ho ?_
    simp only [WInv, hpc] at hinv ⊢
    exact fun p => (hinv p).1
  | read32 i =>
    obtain ⟨s, hi, hpc, rfl⟩ := wAt_some hs
    obtain ⟨ho, hinv⟩ := h.at hi
    refine wOk_set ho ?_
    simp only [WInv, hpc] at hinv ⊢
    exact ⟨hinv, by simp⟩
  | read64 i =>
    obtain ⟨s, hi, hpc, rfl⟩ := wAt_some hs
    obtain ⟨ho, hinv⟩ := h.at hi
    refine wOk_set ho ?_
    simp only [WInv, hpc] at hinv ⊢
    intro p
    refine ⟨hinv.1 p, ?_⟩
    cases p
    · simpa using hinv.2
    · simp
  | plan i q a =>
    obtain ⟨s, hi, hpc, rfl⟩ := wAt_some hs
    obtain ⟨ho, hinv⟩ := h.at hi
    refine wOk_set ho ?_
    simp only [WInv, hpc] at hinv ⊢
    intro p
    refine ⟨(hinv p).1, (hinv p).2.trans ?_⟩
    by_cases e : p = q
    · subst e; simp
    · rw [Function.update_of_ne e]
  | «export» i =>
    obtain ⟨s, hi, hpc, rfl⟩ := wAt_some hs
    obtain ⟨ho, hinv⟩ := h.at hi
    refine wOk_set ho ?_
    simp only [WInv, hpc] at hinv ⊢
    exact fun p => ⟨(hinv p).1, (hinv p).2, le_refl _⟩
  | open32 i =>
    obtain ⟨s, hi, hpc, rfl⟩ := wAt_some hs
    obtain ⟨ho, hinv⟩ := h.at hi
    refine wOk_setFile ho ?_
    simp only [WInv, hpc, WWorld.setFile, WWorld.setProc] at hinv ⊢
    refine ⟨(hinv _).1.trans (hinv _).2.1, by simpa using (hinv .double).1, fun p => ?_, fun p => (hinv p).2.2⟩
    cases p
    · simp [wRead]
    · simpa using (hinv .double).2.1
  | write32 i =>
    obtain ⟨s, hi, hpc, rfl⟩ := wAt_some hs
    obtain ⟨ho, hinv⟩ := h.at hi
    refine wOk_setFile ho ?_
    simp only [WInv, hpc, WWorld.setFile, WWorld.setProc] at hinv ⊢
    obtain ⟨a1, a2, a3, a4⟩ := hinv
    refine ⟨fun p => ?_, fun p => ?_, a4⟩
    · cases p
      · simpa [wRead] using a1
      · simpa using a2
    · cases p
      · simp [wRead]
      · simpa using a3 .double
  | open64 i =>
    obtain ⟨s, hi, hpc, rfl⟩ := wAt_some hs
    obtain ⟨ho, hinv⟩ := h.at hi
    refine wOk_setFile ho ?_
    simp only [WInv, hpc, WWorld.setFile, WWorld.setProc] at hinv ⊢
    obtain ⟨a1, a3, a4⟩ := hinv
    refine ⟨by simpa using a1 .single, (a1 .double).trans (a3 .double), fun p => ?_, a4⟩
    cases p
    · simpa using a3 .single
    · simp [wRead]
  | write64 i =>
    obtain ⟨s, hi, hpc, rfl⟩ := wAt_some hs
    obtain ⟨ho, hinv⟩ := h.at hi
    refine wOk_setFile ho ?_
    simp only [WInv, hpc, WWorld.setFile, WWorld.setProc] at hinv ⊢
    obtain ⟨a1, a2, a3, a4⟩ := hinv
    intro p
    cases p
    · exact ⟨by simpa using a1, by simpa using (a3 .single).trans (a4 .single)⟩
    · exact ⟨by simpa [wRead] using a2, by simpa [wRead] using a4 .double⟩
  | stop i =>
    simp only [wStep] at hs
    split at hs
    · cases hs
    · rename_i s hi
      cases hs
      obtain ⟨ho, hinv⟩ := h.at hi
      refine Or.inl ⟨fun j => ?_, ?_⟩
      · by_cases e : j = i
        · subst e; simp [WWorld.setProc]
        · simp [WWorld.setProc, Function.update_of_ne e, ho j e]
      · rcases h2 i s rfl hi with e | e | e <;> simp only [WInv, e] at hinv
        · exact fun p => (hinv p).1
        · exact hinv
        · exact hinv.1

/-- Histories of processes one by one, none killed while saving. -/
def Calm (w : WWorld P) (a : WAct P) : Prop := OneByOne w a ∧ NoneKilled w a

theorem wOk_run {B : WPrec → Set P} {w w' : WWorld P} (hr : WRun Calm w w') (h : WOk B w) : WOk B w' := by
  induction hr with
  | refl => exact h
  | step a _ hc hs ih => exact wOk_step ih hc.1 hc.2 hs

/-- The invariant with `B` the present contents of the files. -/
theorem wOk_now {B : WPrec → Set P} {w : WWorld P} (h : WOk B w) : WOk (fun p => wRead (w.disk p)) w := by
  rcases h with ⟨h, -⟩ | ⟨i, s, hi, ho, hinv⟩
  · exact Or.inl ⟨h, fun p => le_refl _⟩
  · refine Or.inr ⟨i, s, hi, ho, ?_⟩
    unfold WInv at hinv ⊢
    cases hpc : s.pc <;> simp only [hpc] at hinv ⊢
    · exact fun p => le_refl _
    · exact ⟨fun p => le_refl _, hinv.2⟩
    · exact fun p => ⟨le_refl _, (hinv p).2⟩
    · exact fun p => ⟨le_refl _, (hinv p).2⟩
    · exact ⟨hinv.2.2.1 _, le_refl _, hinv.2.2⟩
    · exact ⟨fun p => le_refl _, hinv.2⟩
    · exact ⟨le_refl _, hinv.2.2.1 _, hinv.2.2⟩

theorem wOk_start {w0 w1 : WWorld P} (h0 : Off w0) (h1 : WRun Calm w0 w1) : WOk (fun p => wRead (w1.disk p)) w1 :=
  wOk_now (wOk_run (B := fun _ => ∅) h1 (Or.inl ⟨h0, fun _ => Set.empty_subset _⟩))

/-- **C124**, proved part: processes that run one after the other and are not killed while saving lose no plan, whatever they do and
however often. -/
theorem C124_expansive_partial (P : Type) : ExpansiveFor P Calm := by
  intro w0 w1 w2 h0 h01 _ h12 q2 p a ha
  rw [stored_iff] at ha ⊢
  rcases wOk_run h12 (wOk_start h0 h01) with ⟨-, h⟩ | ⟨i, s, hi, -, hinv⟩
  · exact h p ha
  · rcases q2 i s hi with e | e | e <;> simp only [WInv, e] at hinv
    · exact (hinv p).1 ha
    · exact hinv p ha
    · exact hinv.1 p ha

/-- **C124**, kills: at every moment, also within a save, one of the two files holds all it held at any earlier moment. So a kill costs at most
one file. -/
theorem C124_one_file (w0 w1 w2 : WWorld P) (h0 : Off w0) (h01 : WRun Calm w0 w1) (h12 : WRun Calm w1 w2) :
    (∀ a, Stored w1 .single a → Stored w2 .single a) ∨ (∀ a, Stored w1 .double a → Stored w2 .double a) := by
  simp only [stored_iff]
  rcases wOk_run h12 (wOk_start h0 h01) with ⟨-, h⟩ | ⟨i, s, hi, -, hinv⟩
  · exact Or.inl (h _)
  · unfold WInv at hinv
    cases hpc : s.pc <;> simp only [hpc] at hinv
    · exact Or.inl (hinv _)
    · exact Or.inl (hinv.1 _)
    · exact Or.inl (hinv _).1
    · exact Or.inl (hinv _).1
    · exact Or.inr hinv.2.1
    · exact Or.inl (hinv.1 _)
    · exact Or.inl hinv.1

/-- A list of steps. -/
def wSteps (w : WWorld P) : List (WAct P) → Option (WWorld P)
  | [] => some w
  | a :: l => (wStep w a).bind fun w' => wSteps w' l

/-- C124: a process never forgets. Whatever all processes do, as long as process `i` is not ended the plans it knows are kept. -/
theorem C124_memory (i : ℕ) (w1 w2 : WWorld P) (h : WRun (fun _ a => a ≠ .stop i) w1 w2) (s1 : WProc P) (h1 : w1.procs i = some s1) :
    ∃ s2, w2.procs i = some s2 ∧ ∀ p, s1.mem p ⊆ s2.mem p := by
  induction h with
  | refl => exact ⟨s1, h1, fun _ => subset_rfl⟩
  | step a _ ha hs ih =>
    obtain ⟨s2, e2, m2⟩ := ih
    have key : ∀ (j : ℕ) (c : WPc) (k : WProc P → WProc P) (g : WWorld P → WWorld P) (w w' : WWorld P), (∀ u, (g u).procs = u.procs) →
        (∀ t p, t.mem p ⊆ (k t).mem p) → w.procs i = some s2 → wAt w j c (fun t => g (w.setProc j (some (k t)))) = some w' →
        ∃ s3, w'.procs i = some s3 ∧ ∀ p, s1.mem p ⊆ s3.mem p := by
      intro j c k g w w' hg hk hw hat
      obtain ⟨t, et, _, rfl⟩ := wAt_some hat
      rw [hg]
      by_cases hji : i = j
      · subst hji
        rw [hw] at et
        cases et
        exact ⟨k s2, by simp [WWorld.setProc], fun p => (m2 p).trans (hk s2 p)⟩
      · exact ⟨s2, by simp [WWorld.setProc, Function.update_of_ne hji, hw], m2⟩
    have upd : ∀ (t : WProc P) (q : WPrec) (x : Set P) (p : WPrec), t.mem p ⊆ Function.update t.mem q (t.mem q ∪ x) p := by
      intro t q x p
      by_cases hpq : p = q
      · subst hpq; simp
      · simp [Function.update_of_ne hpq]
    cases a with
    | start j =>
      simp only [wStep] at hs
      split at hs
      · rename_i hj
        cases hs
        have hji : i ≠ j := by rintro rfl; rw [e2] at hj; simp at hj
        exact ⟨s2, by simp [WWorld.setProc, Function.update_of_ne hji, e2], m2⟩
      · simp at hs
    | stop j =>
      simp only [wStep] at hs
      split at hs
      · simp at hs
      · cases hs
        have hji : i ≠ j := by rintro rfl; exact ha rfl
        exact ⟨s2, by simp [WWorld.setProc, Function.update_of_ne hji, e2], m2⟩
    | reload j => exact key j _ (fun t => { t with pc := .load32 }) id _ _ (fun _ => rfl) (fun _ _ => subset_rfl) e2 hs
    | read32 j => exact key j _ (fun t => { t with pc := .load64, mem := _ }) id _ _ (fun _ => rfl) (fun t p => upd t .single _ p) e2 hs
    | read64 j => exact key j _ (fun t => { t with pc := .idle, mem := _ }) id _ _ (fun _ => rfl) (fun t p => upd t .double _ p) e2 hs
    | plan j q x => exact key j _ (fun t => { t with mem := _ }) id _ _ (fun _ => rfl) (fun t p => upd t q _ p) e2 hs
    | «export» j => exact key j _ (fun t => { t with pc := .exported, buf := t.mem }) id _ _ (fun _ => rfl) (fun _ _ => subset_rfl) e2 hs
    | open32 j => exact key j _ (fun t => { t with pc := .opened32 }) (fun u => u.setFile .single none) _ _ (fun _ => rfl) (fun _ _ => subset_rfl) e2 hs
    | write32 j =>
      obtain ⟨t, et, _, rfl⟩ := wAt_some hs
      by_cases hji : i = j
      · subst hji
        rw [e2] at et
        cases et
        exact ⟨{ s2 with pc := .wrote32 }, by simp [WWorld.setProc, WWorld.setFile], m2⟩
      · exact ⟨s2, by simp [WWorld.setProc, WWorld.setFile, Function.update_of_ne hji, e2], m2⟩
    | open64 j => exact key j _ (fun t => { t with pc := .opened64 }) (fun u => u.setFile .double none) _ _ (fun _ => rfl) (fun _ _ => subset_rfl) e2 hs
    | write64 j =>
      obtain ⟨t, et, _, rfl⟩ := wAt_some hs
      by_cases hji : i = j
      · subst hji
        rw [e2] at et
        cases et
        exact ⟨{ s2 with pc := .idle }, by simp [WWorld.setProc, WWorld.setFile], m2⟩
      · exact ⟨s2, by simp [WWorld.setProc, WWorld.setFile, Function.update_of_ne hji, e2], m2⟩

/-- **C124**, saving: in any state, a process that saves undisturbed has all its plans in the files. -/
theorem C124_saved (w w' : WWorld P) (i : ℕ) (s : WProc P) (hi : w.procs i = some s)
    (h : wSteps w [.export i, .open32 i, .write32 i, .open64 i, .write64 i] = some w') (p : WPrec) (a : P) :
    Stored w' p a ↔ a ∈ s.mem p := by
  simp only [wSteps, wStep, Option.bind_eq_some_iff] at h
  obtain ⟨w1, h1, w2, h2, w3, h3, w4, h4, w5, h5, h6⟩ := h
  obtain ⟨s1, e1, _, rfl⟩ := wAt_some h1
  rw [hi] at e1; cases e1
  obtain ⟨s2, e2, _, rfl⟩ := wAt_some h2
  simp [WWorld.setProc] at e2; subst e2
  obtain ⟨s3, e3, _, rfl⟩ := wAt_some h3
  simp [WWorld.setProc, WWorld.setFile] at e3; subst e3
  obtain ⟨s4, e4, _, rfl⟩ := wAt_some h4
  simp [WWorld.setProc, WWorld.setFile] at e4; subst e4
  obtain ⟨s5, e5, _, rfl⟩ := wAt_some h5
  simp [WWorld.setProc, WWorld.setFile] at e5; subst e5
  cases h6
  rw [stored_iff]
  cases p <;> simp [WWorld.setProc, WWorld.setFile, wRead]

/-! ### Histories that lose plans -/

/-- Plan 7 in both files, nothing running. -/
def wSeven : WWorld ℕ := ⟨fun _ => some {7}, fun _ => none⟩

/-- Nothing in the files, nothing running. -/
def wNothing : WWorld ℕ := ⟨fun _ => none, fun _ => none⟩

/-- A process killed while it saves: the file it had opened is empty, also if all processes run one by one. -/
theorem C124_killed_refuted : ¬ ∀ P : Type, ExpansiveFor P OneByOne := by
  intro h
  have off : Off wSeven := fun _ => rfl
  have r1 := WRun.step (.start 0) (WRun.refl (allowed := OneByOne) wSeven) (fun i _ => off) rfl
  have r2 := WRun.step (.read32 0) r1 (fun i e => nomatch e) rfl
  have r3 := WRun.step (.read64 0) r2 (fun i e => nomatch e) rfl
  have r4 := WRun.step (.plan 0 .double 8) r3 (fun i e => nomatch e) rfl
  have r5 := WRun.step (.export 0) r4 (fun i e => nomatch e) rfl
  have r6 := WRun.step (.open32 0) r5 (fun i e => nomatch e) rfl
  have r7 := WRun.step (.stop 0) r6 (fun i e => nomatch e) rfl
  obtain ⟨s, hs, -⟩ := h ℕ wSeven wSeven _ off (.refl _) (fun i s hi => nomatch hi) r7
    (fun i s hi => by
      by_cases e : i = 0
      · subst e; simp [WWorld.setProc] at hi
      · simp [WWorld.setProc, WWorld.setFile, Function.update_of_ne e, wSeven] at hi) .single 7 ⟨{7}, rfl, rfl⟩
  simp [WWorld.setProc, WWorld.setFile] at hs

/-- Two processes at a time, none killed: the one that saves last drops the plan of the other. -/
theorem C124_two_refuted : ¬ ∀ P : Type, ExpansiveFor P NoneKilled := by
  intro h
  have off : Off wNothing := fun _ => rfl
  have r1 := WRun.step (.start 0) (WRun.refl (allowed := NoneKilled) wNothing) (fun i s e => nomatch e) rfl
  have r2 := WRun.step (.start 1) r1 (fun i s e => nomatch e) rfl
  have r3 := WRun.step (.read32 0) r2 (fun i s e => nomatch e) rfl
  have r4 := WRun.step (.read32 1) r3 (fun i s e => nomatch e) rfl
  have r5 := WRun.step (.read64 0) r4 (fun i s e => nomatch e) rfl
  have r6 := WRun.step (.read64 1) r5 (fun i s e => nomatch e) rfl
  have r7 := WRun.step (.plan 0 .double 7) r6 (fun i s e => nomatch e) rfl
  have r8 := WRun.step (.export 0) r7 (fun i s e => nomatch e) rfl
  have r9 := WRun.step (.open32 0) r8 (fun i s e => nomatch e) rfl
  have r10 := WRun.step (.write32 0) r9 (fun i s e => nomatch e) rfl
  have r11 := WRun.step (.open64 0) r10 (fun i s e => nomatch e) rfl
  have r12 := WRun.step (.write64 0) r11 (fun i s e => nomatch e) rfl
  have here : ∀ {u v : WWorld ℕ}, WRun NoneKilled u v → WRun NoneKilled v v := fun _ => .refl _
  have t1 := WRun.step (.export 1) (here r12) (fun i s e => nomatch e) rfl
  have t2 := WRun.step (.open32 1) t1 (fun i s e => nomatch e) rfl
  have t3 := WRun.step (.write32 1) t2 (fun i s e => nomatch e) rfl
  have t4 := WRun.step (.open64 1) t3 (fun i s e => nomatch e) rfl
  have t5 := WRun.step (.write64 1) t4 (fun i s e => nomatch e) rfl
  have q1 := h ℕ wNothing _ _ off r12 (fun i s hi => by
      left
      by_cases e : i = 0
      · subst e; simp [WWorld.setProc, WWorld.setFile] at hi; subst hi; rfl
      · by_cases e' : i = 1
        · subst e'; simp [WWorld.setProc, WWorld.setFile] at hi; subst hi; rfl
        · simp [WWorld.setProc, WWorld.setFile, Function.update_of_ne e, Function.update_of_ne e', wNothing] at hi) t5
    (fun i s hi => by
      left
      by_cases e : i = 0
      · subst e; simp [WWorld.setProc, WWorld.setFile] at hi; subst hi; rfl
      · by_cases e' : i = 1
        · subst e'; simp [WWorld.setProc, WWorld.setFile] at hi; subst hi; rfl
        · simp [WWorld.setProc, WWorld.setFile, Function.update_of_ne e, Function.update_of_ne e', wNothing] at hi)
    .double 7 ⟨_, rfl, by simp⟩
  rw [stored_iff] at q1
  simp [WWorld.setProc, WWorld.setFile, wRead, wNothing] at q1

/-- The claim for all histories fails. -/
theorem C124_refuted : ¬ C124_full := fun h => C124_killed_refuted fun P w0 w1 w2 a b c d e => by
  have mono : ∀ {u v : WWorld P}, WRun OneByOne u v → WRun (fun _ _ => True) u v := by
    intro u v hr
    induction hr with
    | refl => exact .refl _
    | step x _ _ hs ih => exact .step x ih trivial hs
  exact h P w0 w1 w2 a (mono b) c (mono d) e

/-- A calm history with a save that adds a plan to those on the disk: the hypotheses of `C124_expansive_partial` and `C124_saved` are met. -/
example : ∃ w, WRun Calm wSeven w ∧ Quiet w ∧ Stored w .double 7 ∧ Stored w .double 8 ∧ Stored w .single 7 := by
  have r1 := WRun.step (.start 0) (WRun.refl (allowed := Calm) wSeven) ⟨fun i _ j => rfl, fun i s e => nomatch e⟩ rfl
  have r2 := WRun.step (.read32 0) r1 ⟨fun i e => (nomatch e), fun i s e => nomatch e⟩ rfl
  have r3 := WRun.step (.read64 0) r2 ⟨fun i e => (nomatch e), fun i s e => nomatch e⟩ rfl
  have r4 := WRun.step (.plan 0 .double 8) r3 ⟨fun i e => (nomatch e), fun i s e => nomatch e⟩ rfl
  have r5 := WRun.step (.export 0) r4 ⟨fun i e => (nomatch e), fun i s e => nomatch e⟩ rfl
  have r6 := WRun.step (.open32 0) r5 ⟨fun i e => (nomatch e), fun i s e => nomatch e⟩ rfl
  have r7 := WRun.step (.write32 0) r6 ⟨fun i e => (nomatch e), fun i s e => nomatch e⟩ rfl
  have r8 := WRun.step (.open64 0) r7 ⟨fun i e => (nomatch e), fun i s e => nomatch e⟩ rfl
  have r9 := WRun.step (.write64 0) r8 ⟨fun i e => (nomatch e), fun i s e => nomatch e⟩ rfl
  refine ⟨_, r9, fun i s hi => ?_, ?_, ?_, ?_⟩
  · left
    by_cases e : i = 0
    · subst e; simp [WWorld.setProc, WWorld.setFile] at hi; subst hi; rfl
    · simp [WWorld.setProc, WWorld.setFile, Function.update_of_ne e, wSeven] at hi
  all_goals
    rw [stored_iff]
    simp [WWorld.setProc, WWorld.setFile, wRead, wSeven]

end Ssq
