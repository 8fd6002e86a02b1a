import Verif.File.Lemmas

/-!
# The course of `process_file`
-/

namespace Verif
namespace File

variable {env : Env} {tok : List Char → List (List Char)} {t : Trie (List Char) (List Char)}
  {encNone lowercase overwrite : Bool} {inp out : Path}

theorem sys_run (f : FS → Except FExc FS) (s : FState) :
    (∃ e, (sys env f).run s = (.error e, ⟨s.fs, s.calls + 1, s.history⟩) ∧
      (env.fault s.calls = true ∧ e = .osError ∨
        env.fault s.calls = false ∧ f s.fs = .error e)) ∨
    (∃ fs, f s.fs = .ok fs ∧ env.fault s.calls = false ∧
      (sys env f).run s = (.ok (), ⟨fs, s.calls + 1, s.history ++ [fs]⟩)) := by
  unfold sys
  by_cases hf : env.fault s.calls = true
  · exact .inl ⟨_, by simp only [hf, if_true], .inl ⟨hf, rfl⟩⟩
  · cases e : f s.fs with
    | error x => exact .inl ⟨x, by simp only [hf, e]; rfl, .inr ⟨by simpa using hf, rfl⟩⟩
    | ok fs => exact .inr ⟨fs, rfl, by simpa using hf, by simp only [hf, e]; rfl⟩

/-- Unless the output is skipped, the run either raises before the output is touched, or it has
written the whole translation into the temporary file and goes on to install it. -/
theorem process_split {s : FState} (hskip : (s.fs.exists_ out && !overwrite) = false)
    (hs : St (Before s.fs out) s) :
    (∃ e s', (processFile env tok t lowercase inp out overwrite encNone).run s = (.error e, s') ∧
      St (Before s.fs out) s') ∨
    (∃ s1 text cs, (processFile env tok t lowercase inp out overwrite encNone).run s =
        (install env (tempOf out) out).run s1 ∧ St (Before s.fs out) s1 ∧
      (s.fs.setFile (tempOf out) (some [])).files inp = some text ∧
      chunksOf tok t encNone lowercase text = .ok cs ∧
      s1.fs.files (tempOf out) = some cs.flatten) := by
  unfold processFile
  rw [look_bind, hskip]
  simp only [Bool.false_eq_true, if_false]
  have k1 := keeps_makeFolder (env := env) s hs
  rcases e1 : (makeFolder env (dirname out)).run s with ⟨r1, s1⟩
  rw [e1] at k1
  cases r1 with
  | error e => exact .inl ⟨e, s1, bind_err e1, k1⟩
  | ok _ =>
    rw [bind_ok e1]
    have k2 := keeps_getsize (env := env) inp s1 k1
    rcases e2 : (getsize env inp).run s1 with ⟨r2, s2⟩
    rw [e2] at k2
    cases r2 with
    | error e => exact .inl ⟨e, s2, bind_err e2, k2⟩
    | ok _ =>
      rw [bind_ok e2]
      have k3 := keeps_tryExcept (keeps_fillTemp (env := env) (tok := tok) (t := t)
        (encNone := encNone) (lowercase := lowercase) (inp := inp))
        (keeps_removeTemp (env := env)) s2 k2
      rcases e3 : (tryExcept (fillTemp env tok t encNone lowercase inp (tempOf out))
        (remove env (tempOf out))).run s2 with ⟨r3, s3⟩
      rw [e3] at k3
      cases r3 with
      | error e => exact .inl ⟨e, s3, bind_err e3, k3⟩
      | ok _ =>
        rw [bind_ok e3]
        obtain ⟨text, cs, h1, h2, h3⟩ := fillTemp_ok (tryExcept_ok_inv e3)
        refine .inr ⟨s3, text, cs, rfl, k3, ?_, h2, h3⟩
        rw [← h1]
        unfold FS.setFile
        simp only
        split
        · rfl
        · rename_i hne
          exact (k2.1.1 inp hne).symm

/-- The state between the removal of the old output and the renaming. -/
def gap (fs : FS) (out : Path) : FS := if fs.exists_ out then fs.setFile out none else fs

/-- The final state. -/
def done (fs : FS) (out : Path) (new : List Char) : FS :=
  ((gap fs out).setFile (tempOf out) none).setFile out (some new)

theorem gap_temp (fs : FS) (out : Path) : (gap fs out).files (tempOf out) = fs.files (tempOf out) := by
  unfold gap
  split
  · simp [FS.setFile, tempOf_ne]
  · rfl

theorem gap_dirs (fs : FS) (out : Path) : (gap fs out).dirs = fs.dirs := by
  unfold gap
  split <;> rfl

theorem gap_out (fs : FS) (out : Path) : (gap fs out).files out = none := by
  unfold gap
  split
  · simp [FS.setFile]
  · rename_i h2
    simp only [FS.exists_, Bool.or_eq_true, not_or] at h2
    simpa using h2.1

theorem gap_other (fs : FS) (out p : Path) (h : p ≠ out) : (gap fs out).files p = fs.files p := by
  unfold gap
  split
  · simp [FS.setFile, h]
  · rfl

/-- The installation: nothing happened, or the old output is gone and the temporary file is still
there, or the new output is in place. -/
theorem install_run {s : FState} {new : List Char} (hn : s.fs.files (tempOf out) = some new) :
    (∃ e s', (install env (tempOf out) out).run s = (.error e, s') ∧ s'.fs = s.fs ∧
      s'.history = s.history) ∨
    (∃ e s', (install env (tempOf out) out).run s = (.error e, s') ∧ s.fs.dirs out = false ∧
      s'.fs = gap s.fs out ∧ s'.history = s.history ++ [gap s.fs out]) ∨
    (∃ s', (install env (tempOf out) out).run s = (((printTime env).run s').1, s') ∧
      s.fs.dirs out = false ∧ s'.fs = done s.fs out new ∧
      (s'.history = s.history ++ [gap s.fs out, done s.fs out new] ∨
       s'.history = s.history ++ [done s.fs out new])) := by
  have hpt : ∀ s : FState, (printTime env).run s = (((printTime env).run s).1, s) := by
    intro s
    unfold printTime
    cases formatSeconds env.elapsed <;> rfl
  unfold install
  rw [look_bind]
  by_cases hx : s.fs.exists_ out = true
  · have hg : gap s.fs out = s.fs.setFile out none := by unfold gap; rw [if_pos hx]
    rw [if_pos hx]
    rcases sys_run (env := env) (fun fs =>
      if fs.dirs out then .error .isADirectory
      else if (fs.files out).isNone then .error .fileNotFound
      else .ok (fs.setFile out none)) s with ⟨e, h, _⟩ | ⟨fs, h1, _, h2⟩
    · exact .inl ⟨e, _, bind_err h, rfl, rfl⟩
    · have hd : s.fs.dirs out = false := by
        split_ifs at h1 with h3
        simpa using h3
      have h3 : fs = gap s.fs out := by
        split_ifs at h1
        rw [hg]
        exact (Except.ok.inj h1).symm
      subst h3
      have e2 : (remove env out).run s = _ := h2
      rw [bind_ok e2]
      rcases sys_run (env := env) (fun fs =>
        match fs.files (tempOf out) with
        | none => .error .fileNotFound
        | some c => if fs.dirs out then .error .isADirectory
          else .ok ((fs.setFile (tempOf out) none).setFile out (some c)))
        ⟨gap s.fs out, s.calls + 1, s.history ++ [gap s.fs out]⟩ with ⟨e, h, _⟩ | ⟨fs, h4, _, h5⟩
      · exact .inr (.inl ⟨e, _, bind_err h, hd, rfl, rfl⟩)
      · simp only [gap_temp, hn, gap_dirs, hd] at h4
        have h6 : fs = done s.fs out new := (Except.ok.inj h4).symm
        subst h6
        have e3 : (rename env (tempOf out) out).run _ = _ := h5
        rw [bind_ok e3]
        exact .inr (.inr ⟨_, hpt _, hd, rfl, .inl (by simp)⟩)
  · have hg : gap s.fs out = s.fs := by unfold gap; rw [if_neg hx]
    have hd : s.fs.dirs out = false := by
      simp only [FS.exists_, Bool.or_eq_true, not_or] at hx
      simpa using hx.2
    rw [if_neg hx]
    simp only
    rcases sys_run (env := env) (fun fs =>
      match fs.files (tempOf out) with
      | none => .error .fileNotFound
      | some c => if fs.dirs out then .error .isADirectory
        else .ok ((fs.setFile (tempOf out) none).setFile out (some c))) s with ⟨e, h, _⟩ | ⟨fs, h4, _, h5⟩
    · exact .inl ⟨e, _, bind_err h, rfl, rfl⟩
    · simp only [hn, hd] at h4
      have h6 : fs = done s.fs out new := by
        unfold done
        rw [hg]
        exact (Except.ok.inj h4).symm
      subst h6
      have e3 : (rename env (tempOf out) out).run _ = _ := h5
      rw [bind_ok e3]
      exact .inr (.inr ⟨_, hpt _, hd, rfl, .inr rfl⟩)

end File
end Verif
