import Verif.Lemmas.Configs
import Mathlib.Data.List.Induction

/-!
# Configuration file (C61)
-/
namespace Ssq
variable (num : PyS → Option ℚ)

/-! ## C61 -/

/-- A configuration: modules, their objects, their `key=value` entries, in order. -/
abbrev CfgDoc := List (PyS × List (PyS × List (PyS × PyS)))

/-- Text on one line that neither begins nor ends with a space. -/
def Spec.Word (s : PyS) : Prop := s.head? ≠ some ' ' ∧ s.getLast? ≠ some ' ' ∧ '\n' ∉ s

/-- One line of a configuration, with spaces around its parts. -/
inductive Spec.ModLine (m : PyS) : PyS → Prop
  | mk (a b : ℕ) : ModLine m (List.replicate a ' ' ++ ("## ".toList ++ m) ++ List.replicate b ' ')
inductive Spec.ObjLine (o : PyS) : PyS → Prop
  | mk (a b : ℕ) : ObjLine o (List.replicate a ' ' ++ ("# ".toList ++ o) ++ List.replicate b ' ')
inductive Spec.KeyLine (k v : PyS) : PyS → Prop
  | mk (a b c d : ℕ) : KeyLine k v (List.replicate a ' ' ++ k ++ List.replicate b ' ' ++ '=' ::
      (List.replicate c ' ' ++ v ++ List.replicate d ' '))

/-- The lines of a configuration, with any number of the lines in `blank` between them. -/
inductive Spec.Lines (blank : PyS → Prop) : CfgDoc → List PyS → Prop
  | nil : Lines blank [] []
  | blank {doc ls} (l : PyS) : blank l → Lines blank doc ls → Lines blank doc (ls ++ [l])
  | module {doc ls} (m l : PyS) : Spec.ModLine m l → Lines blank doc ls → Lines blank (doc ++ [(m, [])]) (ls ++ [l])
  | object {doc ls} (m o l : PyS) (os : List (PyS × List (PyS × PyS))) : Spec.ObjLine o l →
      Lines blank (doc ++ [(m, os)]) ls → Lines blank (doc ++ [(m, os ++ [(o, [])])]) (ls ++ [l])
  | entry {doc ls} (m o k v l : PyS) (os : List (PyS × List (PyS × PyS))) (kvs : List (PyS × PyS)) : Spec.KeyLine k v l →
      Lines blank (doc ++ [(m, os ++ [(o, kvs)])]) ls →
      Lines blank (doc ++ [(m, os ++ [(o, kvs ++ [(k, v)])])]) (ls ++ [l])

/-- Names are words; keys hold no `=` and do not begin with `#`; values hold no `=`. -/
def Spec.GoodDoc (doc : CfgDoc) : Prop :=
  ∀ e ∈ doc, e.1 ≠ [] ∧ Spec.Word e.1 ∧ ∀ f ∈ e.2, f.1 ≠ [] ∧ Spec.Word f.1 ∧ ∀ kv ∈ f.2,
    kv.1 ≠ [] ∧ Spec.Word kv.1 ∧ '=' ∉ kv.1 ∧ kv.1.head? ≠ some '#' ∧ Spec.Word kv.2 ∧ '=' ∉ kv.2

/-- The file: the lines, the END marker alone on its line, and anything. -/
def Spec.file (ls : List PyS) (rest : PyS) : PyS := ls.flatMap (· ++ ['\n']) ++ ("#### END".toList ++ rest)

/-- The last value given for a key of an object of a module, anywhere in the file. -/
def Spec.lastValue (doc : CfgDoc) (m o k : PyS) : Option PyS :=
  (doc.flatMap fun e => if e.1 = m then e.2.flatMap fun f => if f.1 = o then
    f.2.filterMap fun kv => if kv.1 = k then some kv.2 else none else [] else []).getLast?

/-- `GDEFAULTS[m][o][k]`. -/
def Spec.lookup (g : GDict) (m o k : PyS) : Option CfgV := ((g.find m).bind fun d => d.find o).bind fun d => d.find k

/-- C61 in full: blank lines may hold spaces, sections may be repeated. -/
def C61_full : Prop := ∀ (num : PyS → Option ℚ) (doc : CfgDoc) (ls : List PyS) (rest : PyS), Spec.GoodDoc doc →
  Spec.Lines (fun l => ∀ c ∈ l, c = ' ') doc ls → (rest = [] ∨ rest.head? = some '\n') →
  ∃ g, getGdefaults num (Spec.file ls rest) = .ok g ∧
    ∀ m o k, Spec.lookup g m o k = (Spec.lastValue doc m o k).map (cfgValue num)

/-- The entries of one object, as a dict. -/
def kvDict (kvs : List (PyS × PyS)) : PyDict CfgV := kvs.foldl (fun d e => d.set e.1 (cfgValue num e.2)) []

def objDict (os : List (PyS × List (PyS × PyS))) : PyDict (PyDict CfgV) := os.map fun f => (f.1, kvDict num f.2)

/-- What the parser is expected to build. -/
def docDict (doc : CfgDoc) : GDict := doc.map fun e => (e.1, objDict num e.2)

theorem docDict_keys (doc : CfgDoc) : (docDict num doc).keys = doc.map (·.1) := by
  simp [docDict, PyDict.keys, Function.comp_def]

theorem objDict_keys (os : List (PyS × List (PyS × PyS))) : (objDict num os).keys = os.map (·.1) := by
  simp [objDict, PyDict.keys, Function.comp_def]

/-- Distinct modules, and distinct objects in each module. -/
def Spec.Distinct (doc : CfgDoc) : Prop := (doc.map (·.1)).Nodup ∧ ∀ e ∈ doc, (e.2.map (·.1)).Nodup

/-- State of the parser after the lines of `doc`. -/
def CfgRel (doc : CfgDoc) (s : CfgSt) : Prop :=
  s.g = docDict num doc ∧ (∀ e, doc.getLast? = some e → s.module = e.1 ∧ ∀ f, e.2.getLast? = some f → s.obj = f.1)

theorem cfgLines_append (s : CfgSt) (l1 l2 : List PyS) :
    cfgLines num s (l1 ++ l2) = match cfgLines num s l1 with | .error e => .error e | .ok s' => cfgLines num s' l2 := by
  induction l1 generalizing s with
  | nil => rfl
  | cons l l1 ih =>
    rw [List.cons_append]
    simp only [cfgLines]
    cases cfgLine num s l with
    | error e => rfl
    | ok s' => exact ih s'

/-- The lines the loop sees. -/
def cfgSeen (ls : List PyS) : List PyS := (ls.filter (· != [])).map (pyStrip ' ')

theorem cfgSeen_append (a b : List PyS) : cfgSeen (a ++ b) = cfgSeen a ++ cfgSeen b := by
  simp [cfgSeen]

theorem cfgSeen_one (l : PyS) (h : l ≠ []) : cfgSeen [l] = [pyStrip ' ' l] := by
  simp [cfgSeen, h]

theorem word_prefix {p m : PyS} (hp : p.head? ≠ some ' ') (hpn : p ≠ []) (hm : m ≠ []) (h : Spec.Word m) :
    (p ++ m).head? ≠ some ' ' ∧ (p ++ m).getLast? ≠ some ' ' := by
  constructor
  · cases p with
    | nil => exact absurd rfl hpn
    | cons a p => simpa using hp
  · rw [List.getLast?_append_of_ne_nil _ hm]; exact h.2.1

theorem strip_modLine {m l : PyS} (hm : m ≠ []) (h : Spec.Word m) (hl : Spec.ModLine m l) :
    l ≠ [] ∧ pyStrip ' ' l = "## ".toList ++ m := by
  obtain ⟨a, b⟩ := hl
  obtain ⟨h1, h2⟩ := word_prefix (p := "## ".toList) (by decide) (by decide) hm h
  exact ⟨by simp, pyStrip_core _ _ _ _ h1 h2⟩

theorem strip_objLine {m l : PyS} (hm : m ≠ []) (h : Spec.Word m) (hl : Spec.ObjLine m l) :
    l ≠ [] ∧ pyStrip ' ' l = "# ".toList ++ m := by
  obtain ⟨a, b⟩ := hl
  obtain ⟨h1, h2⟩ := word_prefix (p := "# ".toList) (by decide) (by decide) hm h
  exact ⟨by simp, pyStrip_core _ _ _ _ h1 h2⟩

theorem strip_keyLine {k v l : PyS} (hk : k ≠ []) (h : Spec.Word k) (hv : Spec.Word v) (hke : '=' ∉ k) (hve : '=' ∉ v)
    (hl : Spec.KeyLine k v l) :
    l ≠ [] ∧ (pyStrip ' ' l).head? = k.head? ∧ (pySplit '=' (pyStrip ' ' l)).map (pyStrip ' ') = [k, v] := by
  obtain ⟨a, b, c, d⟩ := hl
  refine ⟨by simp, ?_⟩
  have hsp : ∀ n, '=' ∉ List.replicate n ' ' := fun n hm => by
    have := List.eq_of_mem_replicate hm; exact absurd this (by decide)
  have hkb : '=' ∉ k ++ List.replicate b ' ' := by
    rw [List.mem_append]; rintro (h | h); exact hke h; exact hsp b h
  have hkh : ∀ t : PyS, (k ++ t).head? = k.head? := by
    intro t; cases k with
    | nil => exact absurd rfl hk
    | cons x k => rfl
  by_cases hv0 : v = []
  · subst hv0
    have hcore : (List.replicate a ' ' ++ k ++ List.replicate b ' ' ++ '=' ::
        (List.replicate c ' ' ++ [] ++ List.replicate d ' ')) =
        List.replicate a ' ' ++ (k ++ (List.replicate b ' ' ++ ['='])) ++ List.replicate (c + d) ' ' := by
      rw [List.append_nil, List.replicate_add]; simp
    have hl' : (k ++ (List.replicate b ' ' ++ ['='])).getLast? ≠ some ' ' := by
      rw [← List.append_assoc, List.getLast?_concat]; decide
    rw [hcore, pyStrip_core _ _ _ _ (by rw [hkh]; exact h.1) hl']
    refine ⟨hkh _, ?_⟩
    rw [← List.append_assoc, pySplit_append _ _ _ hkb]
    simp only [pySplit, List.map_cons, List.map_nil]
    rw [pyStrip_right _ _ _ h.1 h.2.1]
    rfl
  · have hcore : (List.replicate a ' ' ++ k ++ List.replicate b ' ' ++ '=' ::
        (List.replicate c ' ' ++ v ++ List.replicate d ' ')) =
        List.replicate a ' ' ++ (k ++ (List.replicate b ' ' ++ '=' :: (List.replicate c ' ' ++ v))) ++ List.replicate d ' ' := by
      simp
    have hl' : (k ++ (List.replicate b ' ' ++ '=' :: (List.replicate c ' ' ++ v))).getLast? ≠ some ' ' := by
      have : k ++ (List.replicate b ' ' ++ '=' :: (List.replicate c ' ' ++ v)) =
          (k ++ (List.replicate b ' ' ++ '=' :: List.replicate c ' ')) ++ v := by simp
      rw [this, List.getLast?_append_of_ne_nil _ hv0]; exact hv.2.1
    rw [hcore, pyStrip_core _ _ _ _ (by rw [hkh]; exact h.1) hl']
    refine ⟨hkh _, ?_⟩
    have hcv : '=' ∉ List.replicate c ' ' ++ v := by
      rw [List.mem_append]; rintro (h | h); exact hsp c h; exact hve h
    rw [← List.append_assoc, pySplit_append _ _ _ hkb, pySplit_none _ _ hcv]
    simp only [List.map_cons, List.map_nil]
    rw [pyStrip_right _ _ _ h.1 h.2.1, pyStrip_left _ _ _ hv.1 hv.2.1]

theorem distinct_prefix {doc : CfgDoc} {e : PyS × List (PyS × List (PyS × PyS))} (h : Spec.Distinct (doc ++ [e])) :
    Spec.Distinct doc ∧ e.1 ∉ doc.map (·.1) ∧ (e.2.map (·.1)).Nodup := by
  obtain ⟨h1, h2⟩ := h
  rw [List.map_append, List.nodup_append] at h1
  exact ⟨⟨h1.1, fun e he => h2 e (List.mem_append_left _ he)⟩, fun hm => h1.2.2 _ hm _ (by simp) rfl, h2 e (by simp)⟩

/-- The parser follows the lines. -/
theorem cfgLines_doc (blank : PyS → Prop) (hb : ∀ l, blank l → l = []) (doc : CfgDoc) (ls : List PyS)
    (h : Spec.Lines blank doc ls) (hg : Spec.GoodDoc doc) (hd : Spec.Distinct doc) :
    ∃ s, cfgLines num {} (cfgSeen ls) = .ok s ∧ CfgRel num doc s := by
  induction h with
  | nil => exact ⟨{}, rfl, rfl, fun e he => by simp at he⟩
  | @blank doc ls l hl _ ih =>
    obtain ⟨s, h1, h2⟩ := ih hg hd
    refine ⟨s, ?_, h2⟩
    rw [cfgSeen_append, hb l hl]
    simpa [cfgSeen] using h1
  | @module doc ls m l hl _ ih =>
    obtain ⟨hd1, hd2, _⟩ := distinct_prefix hd
    obtain ⟨s, h1, h2, h3⟩ := ih (fun e he => hg e (List.mem_append_left _ he)) hd1
    obtain ⟨hm, hw, _⟩ := hg (m, []) (by simp)
    obtain ⟨hl1, hl2⟩ := strip_modLine hm hw hl
    refine ⟨{ s with g := s.g.set m [], module := m }, ?_, ?_, ?_⟩
    · rw [cfgSeen_append, cfgLines_append, h1, cfgSeen_one l hl1, hl2]
      simp [cfgLines, cfgLine]
    · change s.g.set m [] = _
      rw [h2, set_new _ _ _ (by rw [docDict_keys]; exact hd2)]
      simp [docDict, objDict]
    · intro e he
      rw [List.getLast?_concat] at he
      cases he
      exact ⟨rfl, fun f hf => by simp at hf⟩
  | @object doc ls m o l os hl _ ih =>
    obtain ⟨hd1, hd2, hd3⟩ := distinct_prefix hd
    simp only [List.map_append, List.map_cons, List.map_nil] at hd3
    rw [List.nodup_append] at hd3
    have hon : o ∉ os.map (·.1) := fun hm => hd3.2.2 _ hm _ (by simp) rfl
    have hg' := hg (m, os ++ [(o, [])]) (by simp)
    have hdd : Spec.Distinct (doc ++ [(m, os)]) := by
      refine ⟨by have := hd.1; simp only [List.map_append, List.map_cons, List.map_nil] at this ⊢; exact this, fun e he => ?_⟩
      rcases List.mem_append.1 he with he | he
      · exact hd.2 e (List.mem_append_left _ he)
      · rw [List.mem_singleton] at he; subst he; exact hd3.1
    have hgg : Spec.GoodDoc (doc ++ [(m, os)]) := by
      intro e he
      rcases List.mem_append.1 he with he | he
      · exact hg e (List.mem_append_left _ he)
      · rw [List.mem_singleton] at he; subst he
        exact ⟨hg'.1, hg'.2.1, fun f hf => hg'.2.2 f (List.mem_append_left _ hf)⟩
    obtain ⟨s, h1, h2, h3⟩ := ih hgg hdd
    obtain ⟨hm, hw, _⟩ := hg'.2.2 (o, []) (by simp)
    obtain ⟨hl1, hl2⟩ := strip_objLine hm hw hl
    obtain ⟨h4, _⟩ := h3 _ (List.getLast?_concat ..)
    have hfind : s.g.find s.module = some (objDict num os) := by
      rw [h2, h4]
      have : docDict num (doc ++ [(m, os)]) = docDict num doc ++ [(m, objDict num os)] := by simp [docDict]
      rw [this]
      exact find_last _ _ _ (by rw [docDict_keys]; exact hd2)
    refine ⟨{ s with g := s.g.set s.module ((objDict num os).set o []), obj := o }, ?_, ?_, ?_⟩
    · rw [cfgSeen_append, cfgLines_append, h1, cfgSeen_one l hl1, hl2]
      simp [cfgLines, cfgLine, hfind]
    · change s.g.set s.module _ = _
      rw [h2, h4]
      have : docDict num (doc ++ [(m, os)]) = docDict num doc ++ [(m, objDict num os)] := by simp [docDict]
      rw [this, set_last _ _ _ _ (by rw [docDict_keys]; exact hd2), set_new _ _ _ (by rw [objDict_keys]; exact hon)]
      simp [docDict, objDict, kvDict]
    · intro e he
      rw [List.getLast?_concat] at he
      cases he
      refine ⟨h4, fun f hf => ?_⟩
      rw [List.getLast?_concat] at hf
      cases hf
      rfl
  | @entry doc ls m o k v l os kvs hl _ ih =>
    obtain ⟨hd1, hd2, hd3⟩ := distinct_prefix hd
    have hg' := hg (m, os ++ [(o, kvs ++ [(k, v)])]) (by simp)
    have hdd : Spec.Distinct (doc ++ [(m, os ++ [(o, kvs)])]) := by
      refine ⟨by have := hd.1; simp only [List.map_append, List.map_cons, List.map_nil] at this ⊢; exact this, fun e he => ?_⟩
      rcases List.mem_append.1 he with he | he
      · exact hd.2 e (List.mem_append_left _ he)
      · rw [List.mem_singleton] at he; subst he
        simp only [List.map_append, List.map_cons, List.map_nil] at hd3 ⊢; exact hd3
    have hgg : Spec.GoodDoc (doc ++ [(m, os ++ [(o, kvs)])]) := by
      intro e he
      rcases List.mem_append.1 he with he | he
      · exact hg e (List.mem_append_left _ he)
      · rw [List.mem_singleton] at he; subst he
        refine ⟨hg'.1, hg'.2.1, fun f hf => ?_⟩
        rcases List.mem_append.1 hf with hf | hf
        · exact hg'.2.2 f (List.mem_append_left _ hf)
        · rw [List.mem_singleton] at hf; subst hf
          obtain ⟨a, b, c⟩ := hg'.2.2 (o, kvs ++ [(k, v)]) (by simp)
          exact ⟨a, b, fun kv hkv => c kv (List.mem_append_left _ hkv)⟩
    obtain ⟨s, h1, h2, h3⟩ := ih hgg hdd
    obtain ⟨hk0, hkw, hke, hkh, hvw, hve⟩ := (hg'.2.2 (o, kvs ++ [(k, v)]) (by simp)).2.2 (k, v) (by simp)
    obtain ⟨hl1, hl2, hl3⟩ := strip_keyLine hk0 hkw hvw hke hve hl
    obtain ⟨h4, h5⟩ := h3 _ (List.getLast?_concat ..)
    have h6 := h5 _ (List.getLast?_concat ..)
    simp only [List.map_append, List.map_cons, List.map_nil] at hd3
    rw [List.nodup_append] at hd3
    have hon : o ∉ os.map (·.1) := fun hm => hd3.2.2 _ hm _ (by simp) rfl
    have ed : docDict num (doc ++ [(m, os ++ [(o, kvs)])]) = docDict num doc ++ [(m, objDict num (os ++ [(o, kvs)]))] := by
      simp [docDict]
    have eo : objDict num (os ++ [(o, kvs)]) = objDict num os ++ [(o, kvDict num kvs)] := by simp [objDict]
    have hfind : s.g.find s.module = some (objDict num (os ++ [(o, kvs)])) := by
      rw [h2, h4, ed]
      exact find_last _ _ _ (by rw [docDict_keys]; exact hd2)
    have hfind2 : (objDict num (os ++ [(o, kvs)])).find s.obj = some (kvDict num kvs) := by
      rw [h6, eo]
      exact find_last _ _ _ (by rw [objDict_keys]; exact hon)
    refine ⟨{ s with g := s.g.set s.module ((objDict num (os ++ [(o, kvs)])).set s.obj ((kvDict num kvs).set k (cfgValue num v))) },
      ?_, ?_, ?_⟩
    · rw [cfgSeen_append, cfgLines_append, h1, cfgSeen_one l hl1]
      have hnot : ∀ p : PyS, p.head? = some '#' → ∀ n, (pyStrip ' ' l).take n ≠ p := by
        intro p hp n e
        rw [← e] at hp
        rw [List.head?_take] at hp
        split_ifs at hp
        rw [hl2] at hp
        exact hkh hp
      simp only [cfgLines, cfgLine]
      rw [if_neg (hnot _ (by decide) 3), if_neg (hnot _ (by decide) 2)]
      simp only [hl3, hfind, hfind2]
    · change s.g.set s.module _ = _
      rw [h2, h4, h6, ed, set_last _ _ _ _ (by rw [docDict_keys]; exact hd2), eo,
        set_last _ _ _ _ (by rw [objDict_keys]; exact hon)]
      simp [docDict, objDict, kvDict]
    · intro e he
      rw [List.getLast?_concat] at he
      cases he
      refine ⟨h4, fun f hf => ?_⟩
      rw [List.getLast?_concat] at hf
      cases hf
      exact h6

/-- No line of a configuration is the END marker or holds a line break. -/
theorem lines_ok (blank : PyS → Prop) (hb : ∀ l, blank l → l = []) (doc : CfgDoc) (ls : List PyS)
    (h : Spec.Lines blank doc ls) (hg : Spec.GoodDoc doc) : ∀ l ∈ ls, '\n' ∉ l ∧ l ≠ "#### END".toList := by
  have hsp : ∀ n, '\n' ∉ List.replicate n ' ' := fun n hm => by
    have := List.eq_of_mem_replicate hm; exact absurd this (by decide)
  induction h with
  | nil => intro l hl; cases hl
  | @blank doc ls l hl _ ih =>
    intro x hx
    rcases List.mem_append.1 hx with hx | hx
    · exact ih hg x hx
    · rw [List.mem_singleton] at hx; subst hx; rw [hb _ hl]; decide
  | @module doc ls m l hl _ ih =>
    intro x hx
    rcases List.mem_append.1 hx with hx | hx
    · exact ih (fun e he => hg e (List.mem_append_left _ he)) x hx
    · rw [List.mem_singleton] at hx; subst hx
      obtain ⟨hm, hw, _⟩ := hg (m, []) (by simp)
      have hs := (strip_modLine hm hw hl).2
      constructor
      · obtain ⟨a, b⟩ := hl
        simp only [List.mem_append, not_or]
        exact ⟨⟨hsp a, by decide, hw.2.2⟩, hsp b⟩
      · intro e
        rw [e, show pyStrip ' ' "#### END".toList = "#### END".toList from by decide] at hs
        have := congrArg (List.take 3) hs
        rw [List.take_append_of_le_length (by decide)] at this
        exact absurd this (by decide)
  | @object doc ls m o l os hl _ ih =>
    have hg' := hg (m, os ++ [(o, [])]) (by simp)
    intro x hx
    rcases List.mem_append.1 hx with hx | hx
    · refine ih (fun e he => ?_) x hx
      rcases List.mem_append.1 he with he | he
      · exact hg e (List.mem_append_left _ he)
      · rw [List.mem_singleton] at he; subst he
        exact ⟨hg'.1, hg'.2.1, fun f hf => hg'.2.2 f (List.mem_append_left _ hf)⟩
    · rw [List.mem_singleton] at hx; subst hx
      obtain ⟨hm, hw, _⟩ := hg'.2.2 (o, []) (by simp)
      have hs := (strip_objLine hm hw hl).2
      constructor
      · obtain ⟨a, b⟩ := hl
        simp only [List.mem_append, not_or]
        exact ⟨⟨hsp a, by decide, hw.2.2⟩, hsp b⟩
      · intro e
        rw [e, show pyStrip ' ' "#### END".toList = "#### END".toList from by decide] at hs
        have := congrArg (List.take 2) hs
        rw [List.take_append_of_le_length (by decide)] at this
        exact absurd this (by decide)
  | @entry doc ls m o k v l os kvs hl _ ih =>
    have hg' := hg (m, os ++ [(o, kvs ++ [(k, v)])]) (by simp)
    intro x hx
    rcases List.mem_append.1 hx with hx | hx
    · refine ih (fun e he => ?_) x hx
      rcases List.mem_append.1 he with he | he
      · exact hg e (List.mem_append_left _ he)
      · rw [List.mem_singleton] at he; subst he
        refine ⟨hg'.1, hg'.2.1, fun f hf => ?_⟩
        rcases List.mem_append.1 hf with hf | hf
        · exact hg'.2.2 f (List.mem_append_left _ hf)
        · rw [List.mem_singleton] at hf; subst hf
          obtain ⟨a, b, c⟩ := hg'.2.2 (o, kvs ++ [(k, v)]) (by simp)
          exact ⟨a, b, fun kv hkv => c kv (List.mem_append_left _ hkv)⟩
    · rw [List.mem_singleton] at hx; subst hx
      obtain ⟨hk0, hkw, hke, hkh, hvw, hve⟩ := (hg'.2.2 (o, kvs ++ [(k, v)]) (by simp)).2.2 (k, v) (by simp)
      constructor
      · obtain ⟨a, b, c, d⟩ := hl
        simp only [List.mem_append, List.mem_cons, not_or]
        exact ⟨⟨⟨hsp a, hkw.2.2⟩, hsp b⟩, by decide, ⟨hsp c, hvw.2.2⟩, hsp d⟩
      · intro e
        have hq : '=' ∈ x := by obtain ⟨a, b, c, d⟩ := hl; simp
        rw [e] at hq
        exact absurd hq (by decide)

theorem takeWhile_append_stop {α : Type} (p : α → Bool) (l r : List α) (x : α) (h : ∀ a ∈ l, p a = true) (hx : p x = false) :
    (l ++ x :: r).takeWhile p = l := by
  induction l with
  | nil => simp [hx]
  | cons a l ih =>
    rw [List.cons_append, List.takeWhile_cons, if_pos (h a List.mem_cons_self), ih fun b hb => h b (List.mem_cons_of_mem _ hb)]

/-- What the parser sees of a file. -/
theorem getGdefaults_file (ls : List PyS) (rest : PyS) (hr : rest = [] ∨ rest.head? = some '\n')
    (hl : ∀ l ∈ ls, '\n' ∉ l ∧ l ≠ "#### END".toList) :
    getGdefaults num (Spec.file ls rest) = match cfgLines num {} (cfgSeen ls) with
      | .error e => .error e
      | .ok s => .ok s.g := by
  have hsplit : ∃ r, pySplit '\n' (Spec.file ls rest) = ls ++ "#### END".toList :: r := by
    unfold Spec.file
    rw [pySplit_lines _ _ _ fun l h => (hl l h).1]
    rcases hr with rfl | hr
    · exact ⟨[], by rw [List.append_nil, pySplit_none _ _ (by decide)]⟩
    · cases rest with
      | nil => simp at hr
      | cons c rest =>
        simp only [List.head?_cons, Option.some.injEq] at hr
        subst hr
        exact ⟨_, by rw [pySplit_append _ _ _ (by decide)]⟩
  obtain ⟨r, hs⟩ := hsplit
  unfold getGdefaults
  simp only
  rw [hs, if_pos (by simp), takeWhile_append_stop _ _ _ _ (fun l h => by simpa using (hl l h).2) (by simp)]
  rfl

theorem find_map_snd {α β : Type} (d : List (PyS × α)) (f : α → β) (k : PyS) :
    PyDict.find (d.map fun e => (e.1, f e.2)) k = (PyDict.find d k).map f := by
  induction d with
  | nil => rfl
  | cons e d ih =>
    rw [List.map_cons, find_cons, find_cons, ih]
    split_ifs <;> rfl

/-- The last value of a key in a list of entries. -/
theorem find_kvDict (kvs : List (PyS × PyS)) (k : PyS) :
    (kvDict num kvs).find k =
      ((kvs.filterMap fun kv => if kv.1 = k then some kv.2 else none).getLast?).map (cfgValue num) := by
  unfold kvDict
  induction kvs using List.reverseRecOn with
  | nil => rfl
  | append_singleton kvs e ih =>
    rw [List.foldl_append, List.foldl_cons, List.foldl_nil, find_set, List.filterMap_append]
    by_cases h : e.1 = k
    · rw [if_pos h]; simp [h]
    · rw [if_neg h, ih]; simp [h]

theorem flatMap_distinct {α β : Type} (d : List (PyS × α)) (f : α → List β) (k : PyS) (h : (d.map (·.1)).Nodup) :
    (d.flatMap fun e => if e.1 = k then f e.2 else []) = ((PyDict.find d k).map f).getD [] := by
  induction d with
  | nil => rfl
  | cons e d ih =>
    rw [List.map_cons, List.nodup_cons] at h
    rw [List.flatMap_cons, find_cons, ih h.2]
    by_cases he : e.1 = k
    · rw [if_pos he, if_pos he]
      have : PyDict.find d k = none := (find_none_iff d k).2 (by rw [← he]; exact h.1)
      rw [this]; simp
    · rw [if_neg he, if_neg he]; rfl

/-- **C61** for files whose blank lines are empty and whose sections are not repeated. -/
theorem C61_parse_partial (doc : CfgDoc) (ls : List PyS) (rest : PyS) (hg : Spec.GoodDoc doc) (hd : Spec.Distinct doc)
    (hl : Spec.Lines (· = []) doc ls) (hr : rest = [] ∨ rest.head? = some '\n') :
    ∃ g, getGdefaults num (Spec.file ls rest) = .ok g ∧ g.keys = doc.map (·.1) ∧
      ∀ m o k, Spec.lookup g m o k = (Spec.lastValue doc m o k).map (cfgValue num) := by
  obtain ⟨s, h1, h2, _⟩ := cfgLines_doc num _ (fun _ h => h) doc ls hl hg hd
  refine ⟨s.g, ?_, by rw [h2, docDict_keys], fun m o k => ?_⟩
  · rw [getGdefaults_file num ls rest hr (lines_ok _ (fun _ h => h) doc ls hl hg), h1]
  · rw [h2]
    unfold Spec.lookup docDict objDict
    rw [find_map_snd]
    have hfm : Spec.lastValue doc m o k = (((PyDict.find doc m).map fun os => os.flatMap fun f => if f.1 = o then
        f.2.filterMap fun kv => if kv.1 = k then some kv.2 else none else []).getD []).getLast? := by
      unfold Spec.lastValue
      rw [flatMap_distinct doc _ m hd.1]
    rw [hfm]
    cases hm : PyDict.find doc m with
    | none => rfl
    | some os =>
      have hos := hd.2 _ (mem_of_find _ _ _ hm)
      simp only [Option.map_some, Option.bind_some, Option.getD_some]
      rw [find_map_snd, flatMap_distinct os _ o hos]
      cases ho : PyDict.find os o with
      | none => rfl
      | some kvs => exact find_kvDict num kvs k

/-- Values: quotes of either kind make no difference, `None`, `True`, `False` and numbers are converted. -/
theorem C61_value (v : PyS) (h1 : v.head? ≠ some '"' ∧ v.getLast? ≠ some '"')
    (h2 : v.head? ≠ some '\'' ∧ v.getLast? ≠ some '\'') :
    (∀ w, w = v ∨ w = ['\''] ++ v ++ ['\''] ∨ w = ['"'] ++ v ++ ['"'] → cfgValue num w = cfgSpecial num v) ∧
    cfgSpecial num "None".toList = .none ∧ cfgSpecial num "True".toList = .bool true ∧
    cfgSpecial num "False".toList = .bool false ∧
    (v ≠ "None".toList → v ≠ "True".toList → v ≠ "False".toList →
      cfgSpecial num v = match num v with | some x => .num x | none => .str v) := by
  refine ⟨?_, rfl, rfl, rfl, fun a b c => by unfold cfgSpecial; rw [if_neg a, if_neg b, if_neg c]; cases num v <;> rfl⟩
  rintro w (rfl | rfl | rfl)
  · unfold cfgValue
    rw [pyStrip_id _ _ h1.1 h1.2, pyStrip_id _ _ h2.1 h2.2]
  · unfold cfgValue
    rw [pyStrip_id '"' _ (by simp) (by rw [List.getLast?_concat]; decide)]
    have := pyStrip_core '\'' 1 1 v h2.1 h2.2
    rw [show List.replicate 1 '\'' = ['\''] from rfl] at this
    rw [this]
  · unfold cfgValue
    have := pyStrip_core '"' 1 1 v h1.1 h1.2
    rw [show List.replicate 1 '"' = ['"'] from rfl] at this
    rw [this, pyStrip_id _ _ h2.1 h2.2]

/-- A line of spaces is not a blank line: the configuration cannot be read. -/
theorem C61_spaces (n : ℕ) (ls : List PyS) (rest : PyS) (hr : rest = [] ∨ rest.head? = some '\n')
    (hl : ∀ l ∈ ls, '\n' ∉ l ∧ l ≠ "#### END".toList) (s : CfgSt) (hs : cfgLines num {} (cfgSeen ls) = .ok s) :
    getGdefaults num (Spec.file (ls ++ [List.replicate (n + 1) ' ']) rest) = .error .valueError := by
  rw [getGdefaults_file num _ rest hr]
  · rw [cfgSeen_append, cfgLines_append, hs, cfgSeen_one _ (by simp)]
    have : pyStrip ' ' (List.replicate (n + 1) ' ') = [] := by
      have := pyStrip_core ' ' (n + 1) 0 [] (by simp) (by simp)
      simpa using this
    rw [this]
    rfl
  · intro l h
    rcases List.mem_append.1 h with h | h
    · exact hl l h
    · rw [List.mem_singleton] at h; subst h
      refine ⟨fun hm => absurd (List.eq_of_mem_replicate hm) (by decide), fun e => ?_⟩
      have : '#' ∈ List.replicate (n + 1) ' ' := by rw [e]; decide
      exact absurd (List.eq_of_mem_replicate this) (by decide)

theorem C61_refuted : ¬ C61_full := fun h => by
  obtain ⟨g, hg, _⟩ := h (fun _ => none) [] [[' ']] [] (fun e he => by cases he)
    (Spec.Lines.blank (ls := []) [' '] (by simp) .nil) (.inl rfl)
  have := C61_spaces (fun _ => none) 0 [] [] (.inl rfl) (by simp) {} rfl
  rw [show ([] : List PyS) ++ [List.replicate (0 + 1) ' '] = [[' ']] from rfl] at this
  rw [this] at hg
  cases hg

/-- A module heading that occurs again drops what the module had. -/
theorem C61_repeated (s : CfgSt) (m : PyS) (o k : PyS) :
    ∃ s', cfgLine num s ("## ".toList ++ m) = .ok s' ∧ Spec.lookup s'.g m o k = none ∧ s'.obj = s.obj := by
  refine ⟨{ s with g := s.g.set m [], module := m }, by simp [cfgLine], ?_, rfl⟩
  unfold Spec.lookup
  simp only
  rw [find_set, if_pos rfl]
  rfl

/-- A configuration to which `C61_parse_partial` applies. -/
example : ∃ ls, Spec.Lines (· = []) [("configs".toList, [("IS_PARALLEL".toList, [("parallel".toList, "1".toList)])])] ls ∧
    Spec.GoodDoc [("configs".toList, [("IS_PARALLEL".toList, [("parallel".toList, "1".toList)])])] ∧
    Spec.Distinct [("configs".toList, [("IS_PARALLEL".toList, [("parallel".toList, "1".toList)])])] := by
  refine ⟨_, Spec.Lines.entry (doc := []) _ _ _ _ _ [] [] (.mk 0 0 1 0) (.object (doc := []) _ _ _ [] (.mk 2 0)
    (.blank _ rfl (.module (doc := []) _ _ (.mk 0 1) .nil))), ?_, ?_⟩
  · intro e he
    rw [List.mem_singleton] at he; subst he
    refine ⟨by decide, ⟨by decide, by decide, by decide⟩, fun f hf => ?_⟩
    rw [List.mem_singleton] at hf; subst hf
    refine ⟨by decide, ⟨by decide, by decide, by decide⟩, fun kv hkv => ?_⟩
    rw [List.mem_singleton] at hkv; subst hkv
    exact ⟨by decide, ⟨by decide, by decide, by decide⟩, by decide, by decide, ⟨by decide, by decide, by decide⟩, by decide⟩
  · refine ⟨by decide, fun e he => ?_⟩
    rw [List.mem_singleton] at he; subst he
    decide

end Ssq
