import Verif.File.Model
import Verif.Trie.ScanProps
import Mathlib.Data.List.TakeWhile

/-!
# Lemmas about programs over the file system
-/

namespace Verif
namespace File

variable {α β : Type} {env : Env}

theorem bind_run (c : FM α) (f : α → FM β) (s : FState) :
    (c >>= f).run s = match c.run s with
      | (.ok a, s') => (f a).run s'
      | (.error e, s') => (.error e, s') := rfl

theorem bind_ok {c : FM α} {f : α → FM β} {s s' : FState} {a : α}
    (e : c.run s = (.ok a, s')) : (c >>= f).run s = (f a).run s' := by
  rw [bind_run, e]

theorem bind_err {c : FM α} {f : α → FM β} {s s' : FState} {e : FExc}
    (he : c.run s = (.error e, s')) : (c >>= f).run s = (.error e, s') := by
  rw [bind_run, he]

theorem look_bind (f : FS → FM β) (s : FState) : (look >>= f).run s = (f s.fs).run s := rfl

/-- The current file system and all the earlier ones satisfy `I`. -/
def St (I : FS → Prop) (s : FState) : Prop := I s.fs ∧ ∀ f ∈ s.history, I f

/-- The program keeps `I` at every moment. -/
def Keeps (I : FS → Prop) (c : FM α) : Prop := ∀ s, St I s → St I (c.run s).2

theorem keeps_pure (I : FS → Prop) (a : α) : Keeps I (pure a : FM α) := fun _ h => h

theorem keeps_raise (I : FS → Prop) (e : FExc) : Keeps I (raise e : FM α) := fun _ h => h

theorem keeps_bind {I : FS → Prop} {c : FM α} {f : α → FM β} (h1 : Keeps I c)
    (h2 : ∀ a, Keeps I (f a)) : Keeps I (c >>= f) := by
  intro s hs
  have h := h1 s hs
  rw [bind_run]
  rcases e0 : c.run s with ⟨r, s'⟩
  rw [e0] at h
  cases r with
  | error e => exact h
  | ok a => exact h2 a s' h

theorem keeps_look {I : FS → Prop} {f : FS → FM β} (h : ∀ fs, Keeps I (f fs)) :
    Keeps I (look >>= f) := fun s hs => h s.fs s hs

theorem keeps_sys {I : FS → Prop} {f : FS → Except FExc FS}
    (h : ∀ fs fs', I fs → f fs = .ok fs' → I fs') : Keeps I (sys env f) := by
  intro s hs
  unfold sys
  by_cases hf : env.fault s.calls = true
  · simp only [hf, if_true]; exact hs
  · simp only [hf]
    cases e : f s.fs with
    | error _ => exact hs
    | ok fs =>
      have := h _ _ hs.1 e
      refine ⟨this, fun g hg => ?_⟩
      rcases List.mem_append.1 hg with hg | hg
      · exact hs.2 g hg
      · rw [List.mem_singleton.1 hg]; exact this

theorem keeps_ignoreExists {I : FS → Prop} {c : FM Unit} (h : Keeps I c) :
    Keeps I (ignoreExists c) := by
  intro s hs
  have := h s hs
  unfold ignoreExists
  rcases e : c.run s with ⟨r, s'⟩
  rw [e] at this
  simp only [e]
  split
  · rename_i h2; cases h2; exact this
  · exact this

theorem keeps_tryExcept {I : FS → Prop} {b c : FM Unit} (h1 : Keeps I b) (h2 : Keeps I c) :
    Keeps I (tryExcept b c) := by
  intro s hs
  have := h1 s hs
  unfold tryExcept
  rcases e : b.run s with ⟨r, s'⟩
  rw [e] at this
  simp only [e]
  cases r with
  | ok _ => exact this
  | error x =>
    have h3 := h2 s' this
    rcases e' : c.run s' with ⟨r', s''⟩
    rw [e'] at h3
    simp only [e']
    cases r' <;> exact h3

/-! ### Paths -/

theorem dirname_prefix (p : Path) : (splitPath p).1 <+: p := by
  have h0 : (splitAtSlash p).1 <+: p := by
    unfold splitAtSlash
    have := List.dropWhile_suffix (l := p.reverse) (· ≠ '/')
    rw [← List.reverse_prefix, List.reverse_reverse] at this
    exact this
  unfold splitPath
  simp only
  split
  · exact h0
  · refine List.IsPrefix.trans ?_ h0
    have := List.dropWhile_suffix (l := (splitAtSlash p).1.reverse) (· = '/')
    rw [← List.reverse_prefix, List.reverse_reverse] at this
    exact this

theorem tempOf_ne (out : Path) : tempOf out ≠ out := by
  intro h
  have := congrArg List.length h
  simp [tempOf] at this

theorem dirname_no_slash {p : Path} (h : '/' ∉ p) : dirname p = [] := by
  have : (splitAtSlash p).1 = [] := by
    unfold splitAtSlash
    rw [List.reverse_eq_nil_iff, List.dropWhile_eq_nil_iff]
    intro c hc
    rw [List.mem_reverse] at hc
    rw [decide_eq_true_eq]
    rintro rfl
    exact h hc
  unfold dirname splitPath
  simp [this]

/-! ### What happens before the output is replaced -/

/-- Nothing but the temporary file has changed; directories have at most been added on the way to
the output. -/
def Before (fs0 : FS) (out : Path) (fs : FS) : Prop :=
  (∀ p, p ≠ tempOf out → fs.files p = fs0.files p) ∧
  (∀ p, fs0.dirs p = true → fs.dirs p = true) ∧
  (∀ p, fs.dirs p = true → fs0.dirs p = true ∨ p <+: out)

theorem before_refl (fs : FS) (out : Path) : Before fs out fs :=
  ⟨fun _ _ => rfl, fun _ h => h, fun _ h => .inl h⟩

variable {fs0 : FS} {out : Path}

theorem before_temp {fs : FS} (h : Before fs0 out fs) (v : Option (List Char)) :
    Before fs0 out (fs.setFile (tempOf out) v) := by
  refine ⟨fun p hp => ?_, h.2.1, h.2.2⟩
  unfold FS.setFile
  simp only [if_neg hp]
  exact h.1 p hp

theorem keeps_mkdir {p : Path} (hp : p <+: out) : Keeps (Before fs0 out) (mkdir env p) := by
  refine keeps_sys fun fs fs' h e => ?_
  split_ifs at e
  cases e
  refine ⟨h.1, fun q hq => ?_, fun q hq => ?_⟩
  · simp [h.2.1 q hq]
  · simp only [Bool.or_eq_true, decide_eq_true_eq] at hq
    rcases hq with rfl | hq
    · exact .inr hp
    · exact h.2.2 q hq

theorem keeps_makedirs (n : ℕ) {p : Path} (hp : p <+: out) :
    Keeps (Before fs0 out) (makedirs env n p) := by
  induction n generalizing p with
  | zero => exact keeps_mkdir hp
  | succ n ih =>
    unfold makedirs
    refine keeps_look fun fs => ?_
    have hh : (if (splitPath p).2 = [] then splitPath (splitPath p).1 else splitPath p).1 <+: out := by
      split
      · exact ((dirname_prefix _).trans (dirname_prefix _)).trans hp
      · exact (dirname_prefix _).trans hp
    generalize (if (splitPath p).2 = [] then splitPath (splitPath p).1 else splitPath p) = ht at hh
    by_cases hc : ht.1 ≠ [] ∧ ht.2 ≠ [] ∧ fs.exists_ ht.1 = false
    · rw [if_pos hc]
      refine keeps_bind (keeps_ignoreExists (ih hh)) fun _ => ?_
      split
      · exact keeps_pure _ _
      · exact keeps_mkdir hp
    · rw [if_neg hc]
      exact keeps_mkdir hp

theorem keeps_makeFolder : Keeps (Before fs0 out) (makeFolder env (dirname out)) := by
  unfold makeFolder
  refine keeps_look fun fs => ?_
  split
  · exact keeps_pure _ _
  · split
    · exact keeps_raise _ _
    · exact keeps_makedirs _ (dirname_prefix out)

theorem keeps_getsize (p : Path) : Keeps (Before fs0 out) (getsize env p) := by
  refine keeps_sys fun fs fs' h e => ?_
  split_ifs at e
  cases e
  exact h

theorem keeps_openW : Keeps (Before fs0 out) (openW env (tempOf out)) := by
  intro s hs
  unfold openW
  simp only
  split
  · have := before_temp hs.1 (some [])
    refine ⟨this, fun g hg => ?_⟩
    rcases List.mem_append.1 hg with hg | hg
    · exact hs.2 g hg
    · rw [List.mem_singleton.1 hg]; exact this
  · refine keeps_sys (fun fs fs' h e => ?_) s hs
    split_ifs at e
    cases e
    exact before_temp h _

theorem keeps_openR (p : Path) : Keeps (Before fs0 out) (openR env p) := by
  refine keeps_sys fun fs fs' h e => ?_
  split_ifs at e
  cases e
  exact h

theorem keeps_tick : Keeps (Before fs0 out) (tick env) := by
  refine keeps_sys fun fs fs' h e => ?_
  cases e
  exact h

theorem keeps_write (c : List Char) : Keeps (Before fs0 out) (write env (tempOf out) c) := by
  refine keeps_sys fun fs fs' h e => ?_
  cases e
  exact before_temp h _

theorem keeps_removeTemp : Keeps (Before fs0 out) (remove env (tempOf out)) := by
  refine keeps_sys fun fs fs' h e => ?_
  split_ifs at e
  cases e
  exact before_temp h _

theorem keeps_writeAll (cs : List (List Char)) :
    Keeps (Before fs0 out) (writeAll env (tempOf out) cs) := by
  induction cs with
  | nil => exact keeps_tick
  | cons c cs ih =>
    exact keeps_bind keeps_tick fun _ => keeps_bind (keeps_write c) fun _ => ih

variable {tok : List Char → List (List Char)} {t : Trie (List Char) (List Char)}
  {encNone lowercase : Bool} {inp : Path}

theorem keeps_fillTemp :
    Keeps (Before fs0 out) (fillTemp env tok t encNone lowercase inp (tempOf out)) := by
  refine keeps_bind keeps_openW fun _ => keeps_bind (keeps_openR _) fun _ => keeps_look fun fs => ?_
  split
  · exact keeps_raise _ _
  · exact keeps_bind (keeps_writeAll _) fun _ => keeps_tick

/-! ### A successful translation -/

theorem sys_ok {f : FS → Except FExc FS} {s s' : FState} (h : (sys env f).run s = (.ok (), s')) :
    env.fault s.calls = false ∧ f s.fs = .ok s'.fs ∧ s'.calls = s.calls + 1 := by
  unfold sys at h
  by_cases hf : env.fault s.calls = true
  · simp [hf] at h
  · simp only [hf] at h
    cases e : f s.fs with
    | error _ => simp [e] at h
    | ok fs =>
      simp only [e] at h
      cases h
      exact ⟨by simpa using hf, rfl, rfl⟩

theorem bind_ok_inv {c : FM α} {f : α → FM β} {s s' : FState} {b : β}
    (h : (c >>= f).run s = (.ok b, s')) :
    ∃ a s1, c.run s = (.ok a, s1) ∧ (f a).run s1 = (.ok b, s') := by
  rw [bind_run] at h
  rcases e : c.run s with ⟨r, s1⟩
  rw [e] at h
  cases r with
  | error _ => cases h
  | ok a => exact ⟨a, s1, rfl, h⟩

theorem writeAll_ok {p : Path} {cs : List (List Char)} {s s' : FState} {c0 : List Char}
    (h0 : s.fs.files p = some c0) (h : (writeAll env p cs).run s = (.ok (), s')) :
    s'.fs.files p = some (c0 ++ cs.flatten) := by
  induction cs generalizing s c0 with
  | nil =>
    have h : (tick env).run s = (.ok (), s') := h
    obtain ⟨_, h2, _⟩ := sys_ok h
    rw [← Except.ok.inj h2, h0]
    simp
  | cons c cs ih =>
    obtain ⟨_, s1, h1, h⟩ := bind_ok_inv h
    obtain ⟨_, s2, h2, h⟩ := bind_ok_inv h
    obtain ⟨_, k1, _⟩ := sys_ok h1
    obtain ⟨_, k2, _⟩ := sys_ok h2
    have e1 : s.fs = s1.fs := by simpa using k1
    have e2 := Except.ok.inj k2
    have : s2.fs.files p = some (c0 ++ c) := by
      rw [← e2]
      simp [FS.setFile, ← e1, h0]
    have := ih this h
    rw [this]
    simp

theorem openW_ok {p : Path} {s s' : FState} (h : (openW env p).run s = (.ok (), s')) :
    s'.fs = s.fs.setFile p (some []) ∧ s.fs.dirs p = false ∧
      (dirname p = [] ∨ s.fs.dirs (dirname p) = true) := by
  unfold openW at h
  simp only at h
  split at h
  · cases h
  · obtain ⟨_, h2, _⟩ := sys_ok h
    split_ifs at h2 with h3 h4
    refine ⟨(Except.ok.inj h2).symm, by simpa using h3, ?_⟩
    by_cases h5 : dirname p = []
    · exact .inl h5
    · right
      simpa [h5] using h4

/-- What a successful run of the `try` block has done. -/
theorem fillTemp_ok {temp : Path} {s s' : FState}
    (h : (fillTemp env tok t encNone lowercase inp temp).run s = (.ok (), s')) :
    ∃ text cs, (s.fs.setFile temp (some [])).files inp = some text ∧
      chunksOf tok t encNone lowercase text = .ok cs ∧
      s'.fs.files temp = some cs.flatten := by
  obtain ⟨_, s1, h1, h⟩ := bind_ok_inv h
  obtain ⟨_, s2, h2, h⟩ := bind_ok_inv h
  rw [look_bind] at h
  obtain ⟨e1, _⟩ := openW_ok h1
  obtain ⟨_, k2, _⟩ := sys_ok h2
  split_ifs at k2 with k3 k4
  have e2 := Except.ok.inj k2
  rw [← e2, e1] at h
  cases e : chunksOf tok t encNone lowercase (((s.fs.setFile temp (some [])).files inp).getD []) with
  | error x => rw [e] at h; cases h
  | ok cs =>
    rw [e] at h
    obtain ⟨_, s3, h3, h⟩ := bind_ok_inv h
    obtain ⟨_, k5, _⟩ := sys_ok h
    have e5 : s3.fs = s'.fs := by simpa using k5
    have h4 : s2.fs.files temp = some [] := by rw [← e2, e1]; simp [FS.setFile]
    have h6 := writeAll_ok h4 h3
    cases et : (s.fs.setFile temp (some [])).files inp with
    | none => rw [e1, et] at k4; simp at k4
    | some text =>
      rw [et] at e
      exact ⟨text, cs, rfl, e, by rw [← e5, h6]; rfl⟩

theorem tryExcept_ok_inv {b c : FM Unit} {s s' : FState}
    (h : (tryExcept b c).run s = (.ok (), s')) : b.run s = (.ok (), s') := by
  unfold tryExcept at h
  rcases e : b.run s with ⟨r, s1⟩
  simp only [e] at h
  cases r with
  | ok _ => exact h
  | error x =>
    simp only at h
    split at h
    · cases h
    · rename_i hne
      rw [h] at hne
      exact absurd rfl (hne () s')

end File
end Verif
