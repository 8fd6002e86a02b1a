import Verif.File.Clean

/-!
# Properties of `Trie.process_file` (C117–C121)

`inp` and `out` are the two paths, `tempOf out` is `out + '.partial'`; runs start with an empty
history, so that the history holds the file system at every later moment.
-/

namespace Verif
namespace File

open FileSpec TrieSpec

variable (env : Env) (tok : List Char → List (List Char)) (t : Trie (List Char) (List Char))
  (lowercase : Bool) (inp out : Path)

/-! ## C117 -/

/-- An existing output is left alone unless overwriting is asked for: nothing is read, written or
raised. -/
theorem C117_skips_existing (encNone : Bool) (s : FState) (h : s.fs.exists_ out = true) :
    (processFile env tok t lowercase inp out false encNone).run s = (.ok (), s) := by
  unfold processFile
  rw [look_bind, h]
  rfl

/-! ## C118 -/

theorem st_init (fs : FS) (c : ℕ) : St (Before fs out) ⟨fs, c, []⟩ :=
  ⟨before_refl fs out, by simp⟩

/-- The text that the output should have: the translation of the text of the input with Unix line
ends. -/
def IsTranslation (tok : List Char → List (List Char)) (m : Map (List Char) (List Char))
    (text new : List Char) : Prop :=
  ∃ gs, LeftmostLongest m (tok (unixNewlines text)) gs ∧ new = (replaced tok gs).flatten

/-- A call that returns has put the translation of the input into the output, has left no temporary
file and has changed no other file. The input may be the output, but not the temporary file. -/
theorem C118_success (overwrite : Bool) (fs : FS) (c : ℕ) (s' : FState)
    (hskip : fs.exists_ out = false ∨ overwrite = true) (hi : inp ≠ tempOf out)
    (h : (processFile env tok t lowercase inp out overwrite false).run ⟨fs, c, []⟩ = (.ok (), s')) :
    (∃ text new, fs.files inp = some text ∧ IsTranslation tok t.root.get text new ∧
      s'.fs.files out = some new) ∧
    s'.fs.files (tempOf out) = none ∧
    ∀ p, p ≠ out → p ≠ tempOf out → s'.fs.files p = fs.files p := by
  have hsk : (fs.exists_ out && !overwrite) = false := by
    rcases hskip with h | h <;> simp [h]
  rcases process_split (env := env) (tok := tok) (t := t) (encNone := false) (lowercase := lowercase)
      (inp := inp) (s := ⟨fs, c, []⟩) hsk (st_init out fs c) with
    ⟨e, s1, h1, _⟩ | ⟨s1, text, cs, h1, h2, h3, h4, h5⟩
  · rw [h1] at h; cases h
  rw [h1] at h
  have h3' : fs.files inp = some text := by
    simpa [FS.setFile, hi] using h3
  rcases install_run (env := env) h5 with ⟨e, s2, k, _⟩ | ⟨e, s2, k, _⟩ | ⟨s2, k, _, k2, _⟩
  · rw [k] at h; cases h
  · rw [k] at h; cases h
  · rw [k] at h
    have hs : s2 = s' := congrArg Prod.snd h
    subst hs
    obtain ⟨gs, g1, g2⟩ := chunksOf_text h4
    rw [k2]
    refine ⟨⟨text, cs.flatten, h3', ⟨gs, g1, by rw [g2]⟩, ?_⟩, ?_, fun p hp hp' => ?_⟩
    · simp [done, FS.setFile]
    · simp [done, FS.setFile, tempOf_ne]
    · have := gap_other s1.fs out p hp
      simp only [done, FS.setFile, if_neg hp, if_neg hp']
      rw [this, h2.1.1 p hp']

/-- If no system call fails, the input is a file, the directory of the output exists, neither the output
nor the temporary path is a directory and the work takes less than a week, the call returns. -/
theorem C118_returns (overwrite : Bool) (fs : FS) (c : ℕ) (text : List Char)
    (hf : ∀ k, env.fault k = false) (hd : fs.dirs (dirname out) = true)
    (hi : fs.files inp = some text) (hi' : fs.dirs inp = false) (ho : fs.dirs out = false)
    (ht : fs.dirs (tempOf out) = false) (he : |env.elapsed| < 604800) :
    ∃ s', (processFile env tok t lowercase inp out overwrite false).run ⟨fs, c, []⟩ =
      (.ok (), s') := by
  by_cases hsk : (fs.exists_ out && !overwrite) = true
  · unfold processFile
    rw [look_bind, if_pos hsk]
    exact ⟨_, rfl⟩
  unfold processFile
  rw [look_bind, if_neg hsk]
  have e1 : (makeFolder env (dirname out)).run ⟨fs, c, []⟩ = (.ok (), ⟨fs, c, []⟩) := by
    unfold makeFolder
    rw [look_bind, if_pos hd]
    rfl
  rw [bind_ok e1]
  have hx : fs.exists_ inp = true := by simp [FS.exists_, hi]
  have e2 : (getsize env inp).run ⟨fs, c, []⟩ = _ := sys_go (hf _) (by rw [if_pos hx])
  rw [bind_ok e2]
  generalize hs2 : (⟨fs, c + 1, [] ++ [fs]⟩ : FState) = s2
  have hfs : s2.fs = fs := by rw [← hs2]
  have e3 : ∃ s3, (fillTemp env tok t false lowercase inp (tempOf out)).run s2 = (.ok (), s3) := by
    have w1 : (openW env (tempOf out)).run s2 = (.ok (), ⟨fs.setFile (tempOf out) (some []),
        s2.calls + 1, s2.history ++ [fs.setFile (tempOf out) (some [])]⟩) := by
      unfold openW
      simp only [hf, Bool.false_and, Bool.false_eq_true, if_false]
      rw [sys_go (fs := fs.setFile (tempOf out) (some [])) (hf _)]
      rw [hfs]
      simp [ht, dirname_temp, hd]
    unfold fillTemp
    rw [bind_ok w1]
    have w2 : (openR env inp).run ⟨fs.setFile (tempOf out) (some []),
        s2.calls + 1, s2.history ++ [fs.setFile (tempOf out) (some [])]⟩ = _ :=
      sys_go (fs := fs.setFile (tempOf out) (some [])) (hf _) (by
        by_cases hit : inp = tempOf out
        · subst hit; simp [FS.setFile, ht]
        · simp [FS.setFile, hi', hi, hit])
    rw [bind_ok w2, look_bind]
    obtain ⟨cs, hcs⟩ := chunksOf_text_ok (tok := tok) (t := t) (lowercase := lowercase)
      (((fs.setFile (tempOf out) (some [])).files inp).getD [])
    simp only [hcs]
    obtain ⟨s4, w3, _⟩ := writeAll_go hf (tempOf out) cs ⟨fs.setFile (tempOf out) (some []),
        s2.calls + 1 + 1, s2.history ++ [fs.setFile (tempOf out) (some [])] ++
        [fs.setFile (tempOf out) (some [])]⟩
    rw [bind_ok w3]
    exact ⟨_, sys_go (hf _) rfl⟩
  obtain ⟨s3, e3⟩ := e3
  have e4 : (tryExcept (fillTemp env tok t false lowercase inp (tempOf out))
      (remove env (tempOf out))).run s2 = (.ok (), s3) := by
    unfold tryExcept
    simp only [e3]
  rw [bind_ok e4]
  obtain ⟨_, cs, _, _, h5⟩ := fillTemp_ok e3
  have hd3 : s3.fs.dirs out = false := by
    have := (dirs_fillTemp (env := env) (tok := tok) (t := t) (encNone := false)
      (lowercase := lowercase) (inp := inp) (D := fs.dirs) (tempOf out) s2 (by rw [hfs]))
    rw [e3] at this
    simp only at this
    rw [this, ho]
  obtain ⟨str, hstr⟩ := formatSeconds_ok he
  have hp : ∀ s, (printTime env).run s = (.ok (), s) := by
    intro s
    unfold printTime
    rw [hstr]
    rfl
  unfold install
  rw [look_bind]
  have hren : ∀ s : FState, s.fs.files (tempOf out) = some cs.flatten → s.fs.dirs out = false →
      ∃ s', (rename env (tempOf out) out >>= fun _ => printTime env).run s = (.ok (), s') := by
    intro s g1 g2
    have w : (rename env (tempOf out) out).run s = _ := sys_go (hf _) (by rw [g1]; simp only [g2]; rfl)
    rw [bind_ok w]
    exact ⟨_, hp _⟩
  by_cases hx : s3.fs.exists_ out = true
  · rw [if_pos hx]
    have w : (remove env out).run s3 = _ := sys_go (fs := s3.fs.setFile out none) (hf _) (by
      simp only [FS.exists_, hd3, Bool.or_false] at hx
      simp [hd3]
      cases hh : s3.fs.files out with
      | none => rw [hh] at hx; cases hx
      | some v => simp)
    rw [bind_ok w]
    exact hren _ (by simpa [FS.setFile, tempOf_ne] using h5) hd3
  · rw [if_neg hx]
    exact hren _ h5 hd3

/-! ## C119 -/

/-- At every moment of a run, whatever fails and wherever it is cut off: the output is as it was, or it
is complete, or it is missing and the complete translation is in the temporary file. No other file
differs from what it was; directories are only added, on the way to the output. -/
theorem C119_every_moment (overwrite : Bool) (fs : FS) (c : ℕ) (hi : inp ≠ tempOf out) :
    ∃ new : List Char,
      (∀ text, fs.files inp = some text → IsTranslation tok t.root.get text new) ∧
      ∀ f, f ∈ ((processFile env tok t lowercase inp out overwrite false).run ⟨fs, c, []⟩).2.history ∨
          f = ((processFile env tok t lowercase inp out overwrite false).run ⟨fs, c, []⟩).2.fs →
        (f.files out = fs.files out ∨ (f.files out = none ∧ f.files (tempOf out) = some new) ∨
          f.files out = some new) ∧
        (∀ p, p ≠ out → p ≠ tempOf out → f.files p = fs.files p) ∧
        (∀ p, fs.dirs p = true → f.dirs p = true) ∧
        (∀ p, f.dirs p = true → fs.dirs p = true ∨ p <+: out) := by
  have hex : ∃ new : List Char, ∀ text, fs.files inp = some text →
      IsTranslation tok t.root.get text new := by
    cases hin : fs.files inp with
    | none => exact ⟨[], by simp⟩
    | some text =>
      obtain ⟨gs, g, _⟩ := Trie.translateTokens_ok tok t.root (tok (unixNewlines text))
      exact ⟨(replaced tok gs).flatten, fun text' h => by cases h; exact ⟨gs, g, rfl⟩⟩
  have hB : ∀ {new : List Char} {f : FS}, Before fs out f →
      (f.files out = fs.files out ∨ (f.files out = none ∧ f.files (tempOf out) = some new) ∨
        f.files out = some new) ∧
      (∀ p, p ≠ out → p ≠ tempOf out → f.files p = fs.files p) ∧
      (∀ p, fs.dirs p = true → f.dirs p = true) ∧
      (∀ p, f.dirs p = true → fs.dirs p = true ∨ p <+: out) := fun hb =>
    ⟨.inl (hb.1 out (tempOf_ne out).symm), fun p _ h => hb.1 p h, hb.2.1, hb.2.2⟩
  by_cases hsk : (fs.exists_ out && !overwrite) = true
  · have : (processFile env tok t lowercase inp out overwrite false).run ⟨fs, c, []⟩ =
        (.ok (), ⟨fs, c, []⟩) := by
      unfold processFile
      rw [look_bind, if_pos hsk]
      rfl
    rw [this]
    obtain ⟨new, hn⟩ := hex
    refine ⟨new, hn, fun f hf => hB ?_⟩
    rcases hf with hf | hf
    · simp at hf
    · rw [show f = fs from hf]
      exact before_refl fs out
  rcases process_split (env := env) (tok := tok) (t := t) (encNone := false) (lowercase := lowercase)
      (inp := inp) (s := ⟨fs, c, []⟩) (by simpa using hsk) (st_init out fs c) with
    ⟨e, s1, h1, h2⟩ | ⟨s1, text, cs, h1, h2, h3, h4, h5⟩
  · rw [h1]
    obtain ⟨new, hn⟩ := hex
    refine ⟨new, hn, fun f hf => hB ?_⟩
    rcases hf with hf | rfl
    · exact h2.2 f hf
    · exact h2.1
  rw [h1]
  have h3' : fs.files inp = some text := by
    simpa [FS.setFile, hi] using h3
  obtain ⟨gs, g1, g2⟩ := chunksOf_text h4
  refine ⟨cs.flatten, fun text' h => ?_, fun f hf => ?_⟩
  · rw [h3'] at h
    cases h
    exact ⟨gs, g1, by rw [g2]⟩
  have hgap : s1.fs.dirs out = false → f = gap s1.fs out →
      (f.files out = fs.files out ∨ (f.files out = none ∧ f.files (tempOf out) = some cs.flatten) ∨
        f.files out = some cs.flatten) ∧
      (∀ p, p ≠ out → p ≠ tempOf out → f.files p = fs.files p) ∧
      (∀ p, fs.dirs p = true → f.dirs p = true) ∧
      (∀ p, f.dirs p = true → fs.dirs p = true ∨ p <+: out) := by
    rintro - rfl
    refine ⟨.inr (.inl ⟨gap_out _ _, by rw [gap_temp, h5]⟩), fun p hp hp' => ?_, ?_, ?_⟩
    · rw [gap_other _ _ _ hp, h2.1.1 p hp']
    · rw [gap_dirs]; exact h2.1.2.1
    · rw [gap_dirs]; exact h2.1.2.2
  have hdone : f = done s1.fs out cs.flatten →
      (f.files out = fs.files out ∨ (f.files out = none ∧ f.files (tempOf out) = some cs.flatten) ∨
        f.files out = some cs.flatten) ∧
      (∀ p, p ≠ out → p ≠ tempOf out → f.files p = fs.files p) ∧
      (∀ p, fs.dirs p = true → f.dirs p = true) ∧
      (∀ p, f.dirs p = true → fs.dirs p = true ∨ p <+: out) := by
    rintro rfl
    refine ⟨.inr (.inr (by simp [done, FS.setFile])), fun p hp hp' => ?_, ?_, ?_⟩
    · simp only [done, FS.setFile, if_neg hp, if_neg hp']
      rw [gap_other _ _ _ hp, h2.1.1 p hp']
    · show ∀ p, fs.dirs p = true → (gap s1.fs out).dirs p = true
      rw [gap_dirs]; exact h2.1.2.1
    · show ∀ p, (gap s1.fs out).dirs p = true → _
      rw [gap_dirs]; exact h2.1.2.2
  rcases install_run (env := env) h5 with ⟨e, s2, k, k1, k2⟩ | ⟨e, s2, k, k0, k1, k2⟩ |
    ⟨s2, k, k0, k1, k2⟩
  · rw [k] at hf
    rcases hf with hf | rfl
    · rw [k2] at hf; exact hB (h2.2 f hf)
    · rw [k1]; exact hB h2.1
  · rw [k] at hf
    rcases hf with hf | hf
    · rw [k2] at hf
      rcases List.mem_append.1 hf with hf | hf
      · exact hB (h2.2 f hf)
      · exact hgap k0 (List.mem_singleton.1 hf)
    · exact hgap k0 (hf.trans k1)
  · rw [k] at hf
    rcases hf with hf | hf
    · rcases k2 with k2 | k2
      · rw [k2] at hf
        rcases List.mem_append.1 hf with hf | hf
        · exact hB (h2.2 f hf)
        · rcases List.mem_cons.1 hf with hf | hf
          · exact hgap k0 hf
          · exact hdone (List.mem_singleton.1 hf)
      · rw [k2] at hf
        rcases List.mem_append.1 hf with hf | hf
        · exact hB (h2.2 f hf)
        · exact hdone (List.mem_singleton.1 hf)
    · exact hdone (hf.trans k1)

/-! ## C120 -/

/-- A call that raises has left the output as it was, except in two cases: the renaming failed, then the
complete translation is in the temporary file; or the new output is in place and the time could not
be printed. -/
theorem C120_output_after_exception (overwrite : Bool) (fs : FS) (c : ℕ) (e : FExc) (s' : FState)
    (hi : inp ≠ tempOf out)
    (h : (processFile env tok t lowercase inp out overwrite false).run ⟨fs, c, []⟩ =
      (.error e, s')) :
    s'.fs.files out = fs.files out ∨
    (∃ text new, fs.files inp = some text ∧ IsTranslation tok t.root.get text new ∧
      s'.fs.files out = none ∧ s'.fs.files (tempOf out) = some new) ∨
    (∃ text new, fs.files inp = some text ∧ IsTranslation tok t.root.get text new ∧
      s'.fs.files out = some new ∧ 604800 ≤ |env.elapsed| ∧ e = .py .indexError) := by
  by_cases hsk : (fs.exists_ out && !overwrite) = true
  · unfold processFile at h
    rw [look_bind, if_pos hsk] at h
    cases h
  rcases process_split (env := env) (tok := tok) (t := t) (encNone := false) (lowercase := lowercase)
      (inp := inp) (s := ⟨fs, c, []⟩) (by simpa using hsk) (st_init out fs c) with
    ⟨e, s1, h1, h2⟩ | ⟨s1, text, cs, h1, h2, h3, h4, h5⟩
  · rw [h1] at h
    cases h
    exact .inl (h2.1.1 out (tempOf_ne out).symm)
  rw [h1] at h
  have h3' : fs.files inp = some text := by
    simpa [FS.setFile, hi] using h3
  obtain ⟨gs, g1, g2⟩ := chunksOf_text h4
  have htr : IsTranslation tok t.root.get text cs.flatten := ⟨gs, g1, by rw [g2]⟩
  rcases install_run (env := env) h5 with ⟨e, s2, k, k1, _⟩ | ⟨e, s2, k, k0, k1, k2⟩ |
    ⟨s2, k, k0, k1, k2⟩
  · rw [k] at h
    cases h
    rw [k1]
    exact .inl (h2.1.1 out (tempOf_ne out).symm)
  · rw [k] at h
    cases h
    rw [k1]
    exact .inr (.inl ⟨text, cs.flatten, h3', htr, gap_out _ _, by rw [gap_temp, h5]⟩)
  · rw [k] at h
    have hs : s2 = s' := congrArg Prod.snd h
    have he : ((printTime env).run s2).1 = .error e := congrArg Prod.fst h
    subst hs
    rw [k1]
    refine .inr (.inr ⟨text, cs.flatten, h3', htr, by simp [done, FS.setFile], ?_⟩)
    unfold printTime at he
    cases hx : formatSeconds env.elapsed with
    | ok _ => rw [hx] at he; cases he
    | error x =>
      rw [hx] at he
      cases he
      have := (C123_raises_iff _ _).1 hx
      exact ⟨this.1, by rw [this.2]⟩

/-- A call that raises leaves a partly written temporary file only if its last system call failed, the
removal of that file: otherwise the temporary file is as before, gone, or complete. -/
theorem C120_no_partial_file (overwrite encNone : Bool) (fs : FS) (c : ℕ) (e : FExc) (s' : FState)
    (h : (processFile env tok t lowercase inp out overwrite encNone).run ⟨fs, c, []⟩ =
      (.error e, s')) :
    s'.fs.files (tempOf out) = fs.files (tempOf out) ∨ s'.fs.files (tempOf out) = none ∨
    (∃ text new, (if inp = tempOf out then some [] else fs.files inp) = some text ∧
      (encNone = false → IsTranslation tok t.root.get text new) ∧
      s'.fs.files (tempOf out) = some new) ∨
    env.fault (s'.calls - 1) = true := by
  by_cases hsk : (fs.exists_ out && !overwrite) = true
  · unfold processFile at h
    rw [look_bind, if_pos hsk] at h
    cases h
  unfold processFile at h
  rw [look_bind, if_neg hsk] at h
  have k1 := files_makeFolder (env := env) (F := fs.files) (dirname out) ⟨fs, c, []⟩
    ⟨rfl, by simp⟩
  rcases e1 : (makeFolder env (dirname out)).run ⟨fs, c, []⟩ with ⟨r1, s1⟩
  rw [e1] at k1
  cases r1 with
  | error x => rw [bind_err e1] at h; cases h; exact .inl (by rw [k1.1])
  | ok _ =>
    rw [bind_ok e1] at h
    have k2 := files_getsize (env := env) (F := fs.files) inp s1 k1
    rcases e2 : (getsize env inp).run s1 with ⟨r2, s2⟩
    rw [e2] at k2
    cases r2 with
    | error x => rw [bind_err e2] at h; cases h; exact .inl (by rw [k2.1])
    | ok _ =>
      rw [bind_ok e2] at h
      rcases e3 : (fillTemp env tok t encNone lowercase inp (tempOf out)).run s2 with ⟨r3, s3⟩
      cases r3 with
      | ok _ =>
        have e4 : (tryExcept (fillTemp env tok t encNone lowercase inp (tempOf out))
            (remove env (tempOf out))).run s2 = (.ok (), s3) := by
          unfold tryExcept
          simp only [e3]
        rw [bind_ok e4] at h
        obtain ⟨text, cs, h1, h2, h5⟩ := fillTemp_ok e3
        have h1' : (if inp = tempOf out then some [] else fs.files inp) = some text := by
          rw [← h1]
          simp only [FS.setFile]
          rw [k2.1]
        have htr : encNone = false → IsTranslation tok t.root.get text cs.flatten := by
          rintro rfl
          obtain ⟨gs, g1, g2⟩ := chunksOf_text h2
          exact ⟨gs, g1, by rw [g2]⟩
        rcases install_run (env := env) h5 with ⟨_, s4, k, k1, _⟩ | ⟨_, s4, k, _, k1, _⟩ |
          ⟨s4, k, _, k1, _⟩
        · rw [k] at h
          cases h
          exact .inr (.inr (.inl ⟨text, cs.flatten, h1', htr, by rw [k1, h5]⟩))
        · rw [k] at h
          cases h
          exact .inr (.inr (.inl ⟨text, cs.flatten, h1', htr, by rw [k1, gap_temp, h5]⟩))
        · rw [k] at h
          have hs : s4 = s' := congrArg Prod.snd h
          subst hs
          rw [k1]
          exact .inr (.inl (by simp [done, FS.setFile, tempOf_ne]))
      | error x =>
        have hd := dirs_fillTemp (env := env) (tok := tok) (t := t) (encNone := encNone)
          (lowercase := lowercase) (inp := inp) (D := s2.fs.dirs) (tempOf out) s2 rfl
        rw [e3] at hd
        simp only at hd
        rcases sys_run (env := env) (fun fs =>
            if fs.dirs (tempOf out) then .error .isADirectory
            else if (fs.files (tempOf out)).isNone then .error .fileNotFound
            else .ok (fs.setFile (tempOf out) none)) s3 with ⟨y, h1, h2⟩ | ⟨fs', h1, _, h2⟩
        · have e4 : (tryExcept (fillTemp env tok t encNone lowercase inp (tempOf out))
              (remove env (tempOf out))).run s2 = (.error y, ⟨s3.fs, s3.calls + 1, s3.history⟩) := by
            unfold tryExcept
            simp only [e3]
            have : (remove env (tempOf out)).run s3 = _ := h1
            rw [this]
          rw [bind_err e4] at h
          cases h
          rcases h2 with ⟨h2, _⟩ | ⟨_, h2⟩
          · exact .inr (.inr (.inr h2))
          · split_ifs at h2 with g1 g2
            · rw [hd] at g1
              have := fillTemp_dir (env := env) (tok := tok) (t := t) (encNone := encNone)
                (lowercase := lowercase) (inp := inp) g1
              rw [e3] at this
              exact .inl (by rw [show s3.fs = s2.fs from this, k2.1])
            · exact .inr (.inl (by simpa using g2))
        · have e4 : (tryExcept (fillTemp env tok t encNone lowercase inp (tempOf out))
              (remove env (tempOf out))).run s2 =
              (.error x, ⟨fs', s3.calls + 1, s3.history ++ [fs']⟩) := by
            unfold tryExcept
            simp only [e3]
            have : (remove env (tempOf out)).run s3 = _ := h2
            rw [this]
          rw [bind_err e4] at h
          cases h
          split_ifs at h1
          cases h1
          exact .inr (.inl (by simp [FS.setFile]))

/-! ## C121 -/

/-- With an output path without a slash the call always raises, `FileNotFoundError` unless a system call
fails before, and does nothing: `os.path.dirname` is then the empty string, which cannot be made. -/
theorem C121_bare_name (overwrite encNone : Bool) (fs : FS) (c : ℕ) (hs : '/' ∉ out)
    (h0 : fs.exists_ [] = false) (hskip : fs.exists_ out = false ∨ overwrite = true) :
    ∃ e s', (processFile env tok t lowercase inp out overwrite encNone).run ⟨fs, c, []⟩ =
        (.error e, s') ∧ s'.fs = fs ∧
      (e = .fileNotFound ∨ env.fault c = true ∧ e = .osError) := by
  have hsk : (fs.exists_ out && !overwrite) = false := by
    rcases hskip with h | h <;> simp [h]
  have hd : fs.dirs [] = false := by
    simp only [FS.exists_, Bool.or_eq_false_iff] at h0
    exact h0.2
  unfold processFile
  rw [look_bind, hsk]
  simp only [Bool.false_eq_true, if_false, dirname_no_slash hs]
  rcases sys_run (env := env) (fun fs =>
      if ([] : Path) = [] then .error .fileNotFound
      else if fs.exists_ [] then .error .fileExists
      else if dirname [] ≠ [] && !fs.dirs (dirname []) then .error .fileNotFound
      else .ok { fs with dirs := fun q => q = [] || fs.dirs q }) ⟨fs, c, []⟩ with
    ⟨e, h1, h2⟩ | ⟨_, h1, _⟩
  · have e1 : (makeFolder env []).run ⟨fs, c, []⟩ = (.error e, ⟨fs, c + 1, []⟩) := by
      unfold makeFolder
      rw [look_bind]
      simp only [hd, h0, Bool.false_eq_true, if_false]
      exact h1
    refine ⟨e, _, bind_err e1, rfl, ?_⟩
    rcases h2 with h2 | ⟨_, h2⟩
    · exact .inr h2
    · left
      simpa using h2.symm
  · simp at h1

/-- In binary mode (`encoding=None`) the call can only return if the input is empty. -/
theorem C121_binary (overwrite : Bool) (fs : FS) (c : ℕ) (s' : FState)
    (hskip : fs.exists_ out = false ∨ overwrite = true) (hi : inp ≠ tempOf out)
    (h : (processFile env tok t lowercase inp out overwrite true).run ⟨fs, c, []⟩ = (.ok (), s')) :
    fs.files inp = some [] ∧ s'.fs.files out = some [] := by
  have hsk : (fs.exists_ out && !overwrite) = false := by
    rcases hskip with h | h <;> simp [h]
  rcases process_split (env := env) (tok := tok) (t := t) (encNone := true) (lowercase := lowercase)
      (inp := inp) (s := ⟨fs, c, []⟩) hsk (st_init out fs c) with
    ⟨e, s1, h1, _⟩ | ⟨s1, text, cs, h1, h2, h3, h4, h5⟩
  · rw [h1] at h; cases h
  rw [h1] at h
  have h3' : fs.files inp = some text := by
    simpa [FS.setFile, hi] using h3
  have ht : text = [] ∧ cs = [] := by
    unfold chunksOf at h4
    by_cases ht : text = []
    · simp only [ht, if_true] at h4
      exact ⟨ht, (Except.ok.inj h4).symm⟩
    · simp [ht] at h4
  obtain ⟨rfl, rfl⟩ := ht
  rcases install_run (env := env) h5 with ⟨e, s2, k, _⟩ | ⟨e, s2, k, _⟩ | ⟨s2, k, _, k2, _⟩
  · rw [k] at h; cases h
  · rw [k] at h; cases h
  · rw [k] at h
    have hs : s2 = s' := congrArg Prod.snd h
    subst hs
    rw [k2]
    exact ⟨h3', by simp [done, FS.setFile]⟩

/-- If the input is `out + '.partial'`, a call that returns has destroyed it: the output holds the
translation of the empty text and the input is gone. -/
theorem C121_input_is_temporary (overwrite : Bool) (fs : FS) (c : ℕ) (s' : FState)
    (hskip : fs.exists_ out = false ∨ overwrite = true) (ht : tok [] = [])
    (h : (processFile env tok t lowercase (tempOf out) out overwrite false).run ⟨fs, c, []⟩ =
      (.ok (), s')) :
    s'.fs.files out = some [] ∧ s'.fs.files (tempOf out) = none := by
  have hsk : (fs.exists_ out && !overwrite) = false := by
    rcases hskip with h | h <;> simp [h]
  rcases process_split (env := env) (tok := tok) (t := t) (encNone := false) (lowercase := lowercase)
      (inp := tempOf out) (s := ⟨fs, c, []⟩) hsk (st_init out fs c) with
    ⟨e, s1, h1, _⟩ | ⟨s1, text, cs, h1, h2, h3, h4, h5⟩
  · rw [h1] at h; cases h
  rw [h1] at h
  have h3' : text = [] := by
    simpa [FS.setFile] using h3.symm
  subst h3'
  obtain ⟨gs, g1, g2⟩ := chunksOf_text h4
  have hcs : cs = [] := by
    rw [g2]
    have : tok (unixNewlines []) = [] := ht
    rw [this] at g1
    generalize hz : ([] : List (List Char)) = z at g1
    cases g1 with
    | nil => rfl
    | hit a _ _ _ => exact absurd (List.append_eq_nil_iff.1 hz.symm).1 a
    | tok _ _ => cases hz
  subst hcs
  rcases install_run (env := env) h5 with ⟨e, s2, k, _⟩ | ⟨e, s2, k, _⟩ | ⟨s2, k, _, k2, _⟩
  · rw [k] at h; cases h
  · rw [k] at h; cases h
  · rw [k] at h
    have hs : s2 = s' := congrArg Prod.snd h
    subst hs
    rw [k2]
    exact ⟨by simp [done, FS.setFile], by simp [done, FS.setFile, tempOf_ne]⟩

/-- A trie without keys does not copy files: line ends are rewritten. -/
theorem C121_line_ends (overwrite : Bool) (fs : FS) (c : ℕ) (s' : FState)
    (hskip : fs.exists_ out = false ∨ overwrite = true) (hi : inp ≠ tempOf out)
    (ht : ∀ l, (tok l).flatten = l) (hk : ∀ w, w ≠ [] → t.root.get w = none)
    (h : (processFile env tok t lowercase inp out overwrite false).run ⟨fs, c, []⟩ = (.ok (), s')) :
    ∃ text, fs.files inp = some text ∧ s'.fs.files out = some (unixNewlines text) ∧
      ('\r' ∈ text → unixNewlines text ≠ text) := by
  obtain ⟨⟨text, new, h1, ⟨gs, g1, g2⟩, h3⟩, _⟩ := C118_success env tok t lowercase inp out overwrite
    fs c s' hskip hi h
  have key : ∀ (ts : List (List Char)) (gs), LeftmostLongest t.root.get ts gs →
      replaced tok gs = ts := by
    intro ts gs hl
    induction hl with
    | nil => rfl
    | @hit w rest v segs k1 k2 k3 k4 ih => rw [hk w k1] at k2; cases k2
    | @tok y rest segs k1 k2 ih => rw [replaced, ih]
  refine ⟨text, h1, ?_, fun hr he => ?_⟩
  · rw [h3, g2, key _ gs g1, ht]
  · rw [← he] at hr
    simp only [unixNewlines, List.mem_filterMap] at hr
    obtain ⟨p, _, hp⟩ := hr
    split_ifs at hp with a b
    · exact absurd (Option.some.inj hp) (by decide)
    · exact a (Option.some.inj hp)

/-- A call that works for a week or longer never returns. -/
theorem C121_week (overwrite encNone : Bool) (fs : FS) (c : ℕ)
    (hskip : fs.exists_ out = false ∨ overwrite = true) (hw : 604800 ≤ |env.elapsed|) :
    ∃ e, ((processFile env tok t lowercase inp out overwrite encNone).run ⟨fs, c, []⟩).1 =
      .error e := by
  have hsk : (fs.exists_ out && !overwrite) = false := by
    rcases hskip with h | h <;> simp [h]
  rcases process_split (env := env) (tok := tok) (t := t) (encNone := encNone)
      (lowercase := lowercase) (inp := inp) (s := ⟨fs, c, []⟩) hsk (st_init out fs c) with
    ⟨e, s1, h1, _⟩ | ⟨s1, text, cs, h1, h2, h3, h4, h5⟩
  · rw [h1]; exact ⟨e, rfl⟩
  rw [h1]
  rcases install_run (env := env) h5 with ⟨e, s2, k, _⟩ | ⟨e, s2, k, _⟩ | ⟨s2, k, _, k2, _⟩
  · rw [k]; exact ⟨e, rfl⟩
  · rw [k]; exact ⟨e, rfl⟩
  · rw [k]
    unfold printTime
    rw [(C123_raises_iff _ _).2 ⟨hw, rfl⟩]
    exact ⟨_, rfl⟩

/-! ## Sample runs -/

/-- Two directories and a file. -/
def sampleFS : FS :=
  ⟨fun p => if p = "d/in".toList then some "ab\r\ncab".toList
    else if p = "d/old".toList then some "kept".toList else none,
   fun p => p = "d".toList⟩

/-- Nothing fails. -/
def calm : Env := ⟨fun _ => false, false, 2⟩

/-- System call number `k` fails. -/
def storm (k : ℕ) : Env := ⟨fun i => i = k, false, 2⟩

/-- A tokenizer into single characters. -/
def chars (l : List Char) : List (List Char) := l.map fun c => [c]

/-- `ab` becomes `xyz`. -/
def sampleTrie : Trie (List Char) (List Char) :=
  Trie.ofPairs chars [("ab".toList, "xyz".toList)]

/-- The result of a run, with the texts of three files. -/
def outcome (env : Env) (inp out : String) (overwrite : Bool) :
    Except FExc Unit × List (Option (List Char)) :=
  let r := (processFile env chars sampleTrie false inp.toList out.toList overwrite false).run
    ⟨sampleFS, 0, []⟩
  (r.1, [out.toList, tempOf out.toList, inp.toList].map r.2.fs.files)

instance : DecidableEq (Except FExc Unit) := fun a b =>
  match a, b with
  | .ok (), .ok () => .isTrue rfl
  | .error x, .error y => if h : x = y then .isTrue (by rw [h]) else .isFalse (by simpa using h)
  | .ok (), .error y => .isFalse (by simp)
  | .error x, .ok () => .isFalse (by simp)

example : outcome calm "d/in" "d/out" false =
    (.ok (), [some "xyz\ncxyz".toList, none, some "ab\r\ncab".toList]) := by decide +kernel

example : outcome calm "d/in" "d/old" false =
    (.ok (), [some "kept".toList, none, some "ab\r\ncab".toList]) := by decide +kernel

example : outcome calm "d/in" "d/old" true =
    (.ok (), [some "xyz\ncxyz".toList, none, some "ab\r\ncab".toList]) := by decide +kernel

example : outcome calm "d/in" "d/in" true =
    (.ok (), [some "xyz\ncxyz".toList, none, some "xyz\ncxyz".toList]) := by decide +kernel

example : outcome calm "d/in" "d/e/f/out" true =
    (.ok (), [some "xyz\ncxyz".toList, none, some "ab\r\ncab".toList]) := by decide +kernel

example : outcome (storm 6) "d/in" "d/old" true =
    (.error .osError, [some "kept".toList, none, some "ab\r\ncab".toList]) := by decide +kernel

example : outcome calm "d/in" "out" true =
    (.error .fileNotFound, [none, none, some "ab\r\ncab".toList]) := by decide +kernel

/-- The renaming fails: the old output is gone, the new one is in the temporary file. -/
theorem C120_gap : ∃ k, outcome (storm k) "d/in" "d/old" true =
    (.error .osError, [none, some "xyz\ncxyz".toList, some "ab\r\ncab".toList]) :=
  ⟨22, by decide +kernel⟩

/-- The temporary file cannot be opened: the `OSError` is replaced by a `FileNotFoundError` from the
handler, which removes a file that does not exist. -/
theorem C121_masked_exception : outcome (storm 1) "d/in" "d/out" true =
    (.error .fileNotFound, [none, none, some "ab\r\ncab".toList]) := by decide +kernel

end File
end Verif
