import Verif.File.Run
import Verif.File.FormatProps

/-!
# Lemmas about cleaning up and about runs in which nothing fails
-/

namespace Verif
namespace File

open FileSpec TrieSpec

variable {env : Env} {tok : List Char → List (List Char)} {t : Trie (List Char) (List Char)}
  {encNone lowercase overwrite : Bool} {inp out : Path}

/-! ### Line ends -/

theorem universal_eq (text : List Char) : universal text = unixNewlines text := by
  have step : ∀ c (r : List Char), unixNewlines (c :: r) =
      (if c = '\r' then if r.head? = some '\n' then [] else ['\n'] else [c]) ++ unixNewlines r := by
    intro c r
    cases r with
    | nil =>
      simp only [unixNewlines, List.tail_cons, List.map_nil, List.nil_append, List.zip_cons_cons,
        List.zip_nil_left, List.filterMap_cons, List.filterMap_nil, List.head?_nil, List.zip_nil_right]
      split_ifs <;> simp_all
    | cons d r =>
      simp only [unixNewlines, List.tail_cons, List.map_cons, List.cons_append, List.zip_cons_cons,
        List.filterMap_cons, List.head?_cons]
      split_ifs <;> simp_all
  fun_induction universal text with
  | case1 => rfl
  | case2 r ih =>
    rw [step, step, ih]
    simp
  | case3 r hne ih =>
    rw [step, ih]
    have : r.head? ≠ some '\n' := by
      intro h
      cases r with
      | nil => simp at h
      | cons d r =>
        simp only [List.head?_cons, Option.some.injEq] at h
        exact hne r (by rw [h])
    simp [this]
  | case4 c r hne hne2 ih =>
    rw [step, ih]
    have : c ≠ '\r' := by
      rintro rfl
      exact hne2 rfl
    simp [this]

theorem chunksOf_text {text : List Char} {cs : List (List Char)}
    (h : chunksOf tok t false lowercase text = .ok cs) :
    ∃ gs, LeftmostLongest t.root.get (tok (unixNewlines text)) gs ∧ cs = replaced tok gs := by
  unfold chunksOf at h
  obtain ⟨gs, h1, h2⟩ := Trie.translateTokens_ok tok t.root (tok (universal text))
  simp only [h2] at h
  rw [universal_eq] at h1
  exact ⟨gs, h1, (Except.ok.inj h).symm⟩

theorem chunksOf_text_ok (text : List Char) :
    ∃ cs, chunksOf tok t false lowercase text = .ok cs := by
  unfold chunksOf
  obtain ⟨gs, h1, h2⟩ := Trie.translateTokens_ok tok t.root (tok (universal text))
  simp only [h2]
  exact ⟨_, rfl⟩

/-! ### Before the temporary file is opened no file changes -/

variable {F : Path → Option (List Char)}

theorem files_mkdir {p : Path} : Keeps (fun fs => fs.files = F) (mkdir env p) := by
  refine keeps_sys fun fs fs' h e => ?_
  split_ifs at e
  cases e
  exact h

theorem files_makedirs (n : ℕ) (p : Path) : Keeps (fun fs => fs.files = F) (makedirs env n p) := by
  induction n generalizing p with
  | zero => exact files_mkdir
  | succ n ih =>
    unfold makedirs
    refine keeps_look fun fs => ?_
    generalize (if (splitPath p).2 = [] then splitPath (splitPath p).1 else splitPath p) = ht
    by_cases hc : ht.1 ≠ [] ∧ ht.2 ≠ [] ∧ fs.exists_ ht.1 = false
    · rw [if_pos hc]
      refine keeps_bind (keeps_ignoreExists (ih _)) fun _ => ?_
      split
      · exact keeps_pure _ _
      · exact files_mkdir
    · rw [if_neg hc]
      exact files_mkdir

theorem files_makeFolder (d : Path) : Keeps (fun fs => fs.files = F) (makeFolder env d) := by
  unfold makeFolder
  refine keeps_look fun fs => ?_
  split
  · exact keeps_pure _ _
  · split
    · exact keeps_raise _ _
    · exact files_makedirs _ _

theorem files_getsize (p : Path) : Keeps (fun fs => fs.files = F) (getsize env p) := by
  refine keeps_sys fun fs fs' h e => ?_
  split_ifs at e
  cases e
  exact h

/-! ### The directories do not change in the `try` block -/

/-- The program keeps `I` for the current file system. -/
def Cur {α : Type} (I : FS → Prop) (c : FM α) : Prop := ∀ s, I s.fs → I (c.run s).2.fs

theorem cur_bind {α β : Type} {I : FS → Prop} {c : FM α} {f : α → FM β} (h1 : Cur I c)
    (h2 : ∀ a, Cur I (f a)) : Cur I (c >>= f) := by
  intro s hs
  have h := h1 s hs
  rw [bind_run]
  rcases e0 : c.run s with ⟨r, s'⟩
  rw [e0] at h
  cases r with
  | error e => exact h
  | ok a => exact h2 a s' h

theorem cur_sys {I : FS → Prop} {f : FS → Except FExc FS}
    (h : ∀ fs fs', I fs → f fs = .ok fs' → I fs') : Cur I (sys env f) := by
  intro s hs
  rcases sys_run (env := env) f s with ⟨e, h1, _⟩ | ⟨fs, h1, _, h2⟩
  · rw [h1]; exact hs
  · rw [h2]; exact h _ _ hs h1

variable {D : Path → Bool}

theorem dirs_fillTemp (temp : Path) :
    Cur (fun fs => fs.dirs = D) (fillTemp env tok t encNone lowercase inp temp) := by
  have ht : Cur (fun fs => fs.dirs = D) (tick env) := by
    refine cur_sys fun fs fs' h e => ?_
    cases e
    exact h
  have hw : ∀ cs, Cur (fun fs => fs.dirs = D) (writeAll env temp cs) := by
    intro cs
    induction cs with
    | nil => exact ht
    | cons c cs ih =>
      refine cur_bind ht fun _ => cur_bind (cur_sys fun fs fs' h e => ?_) fun _ => ih
      cases e
      exact h
  refine cur_bind ?_ fun _ => cur_bind (cur_sys fun fs fs' h e => ?_) fun _ =>
    cur_bind (fun _ h => h) fun fs => ?_
  · intro s hs
    unfold openW
    simp only
    split
    · exact hs
    · refine cur_sys (I := fun fs => fs.dirs = D) (fun fs fs' h e => ?_) s hs
      split_ifs at e
      cases e
      exact h
  · split_ifs at e
    cases e
    exact h
  · split
    · exact fun _ h => h
    · exact cur_bind (hw _) fun _ => ht

/-- When the temporary path is a directory, the `try` block does nothing. -/
theorem fillTemp_dir {temp : Path} {s : FState} (h : s.fs.dirs temp = true) :
    ((fillTemp env tok t encNone lowercase inp temp).run s).2.fs = s.fs := by
  have h1 : ∃ e, (openW env temp).run s = (.error e, ⟨s.fs, s.calls + 1, s.history⟩) := by
    unfold openW
    simp only [h]
    rcases sys_run (env := env) (fun fs => if fs.dirs temp then .error .isADirectory
      else if dirname temp ≠ [] && !fs.dirs (dirname temp) then .error .fileNotFound
      else .ok (fs.setFile temp (some []))) s with ⟨e, h1, _⟩ | ⟨fs, h1, _⟩
    · exact ⟨e, by simpa using h1⟩
    · simp [h] at h1
  obtain ⟨e, h1⟩ := h1
  unfold fillTemp
  rw [bind_err h1]

/-! ### Runs without failing system calls -/

theorem sys_go {f : FS → Except FExc FS} {s : FState} {fs : FS} (hf : env.fault s.calls = false)
    (h : f s.fs = .ok fs) : (sys env f).run s = (.ok (), ⟨fs, s.calls + 1, s.history ++ [fs]⟩) := by
  unfold sys
  simp only [hf, h]
  rfl

theorem writeAll_go (hf : ∀ k, env.fault k = false) (temp : Path) (cs : List (List Char))
    (s : FState) : ∃ s', (writeAll env temp cs).run s = (.ok (), s') ∧ s'.fs.dirs = s.fs.dirs := by
  induction cs generalizing s with
  | nil => exact ⟨_, sys_go (hf _) rfl, rfl⟩
  | cons c cs ih =>
    unfold writeAll
    have e1 : (tick env).run s = _ := sys_go (hf _) rfl
    rw [bind_ok e1]
    have e2 : (write env temp c).run _ = _ :=
      sys_go (s := ⟨s.fs, s.calls + 1, s.history ++ [s.fs]⟩) (hf _) rfl
    rw [bind_ok e2]
    obtain ⟨s', h1, h2⟩ := ih ⟨_, _, _⟩
    exact ⟨s', h1, h2⟩

theorem dirname_temp (out : Path) : dirname (tempOf out) = dirname out := by
  have : (splitAtSlash (tempOf out)).1 = (splitAtSlash out).1 := by
    unfold splitAtSlash tempOf
    simp only [List.reverse_append]
    rw [List.dropWhile_append_of_pos]
    intro c hc
    have : c ∈ ".partial".toList := List.mem_reverse.1 hc
    revert this
    revert c
    decide +kernel
  unfold dirname splitPath
  simp only [this]
  split <;> rfl

theorem formatSeconds_ok {x : ℚ} (h : |x| < 604800) : ∃ s, formatSeconds x = .ok s := by
  cases e : formatSeconds x with
  | ok s => exact ⟨s, rfl⟩
  | error x' => have := ((C123_raises_iff x x').1 e).1; linarith

end File
end Verif
