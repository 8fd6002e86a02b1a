import Verif.Trie.ScanProps
import Verif.Trie.MapProps

/-!
# Whole words: properties C182 and C183

`tests/test_find_replace_trie.py` (lines 46–80) joins words with spaces and expects a search to find
exactly the stored ones. Here this is proved for every list of words, for the trie's own search and
replacement; `Verif.Regex.WordsProps` has the generated pattern.
-/

namespace Verif
namespace TrieSpec

variable {τ ν : Type}

/-- The stored keys do not contain the separator, none is empty, and none lies inside one of the
words without being the whole word. -/
structure WholeWords (m : Map τ ν) (sep : τ) (ws : List (List τ)) : Prop where
  sepFree : ∀ key, m key ≠ none → sep ∉ key
  nonempty : m [] = none
  whole : ∀ w ∈ ws, ∀ key, m key ≠ none → key <:+: w → key = w

/-- The words with every stored one replaced by its value. -/
def substituted (tokv : ν → List τ) (m : Map τ ν) (ws : List (List τ)) : List (List τ) :=
  ws.map fun w => match m w with
    | some v => tokv v
    | none => w

end TrieSpec

namespace Trie

open TrieSpec

variable {κ τ ν : Type}

/-- The pieces of one word. -/
def wordSegs (m : Map τ ν) (w : List τ) : List (Seg τ ν) :=
  match m w with
  | some v => [.hit w v]
  | none => w.map .tok

/-- The pieces of words joined by a separator. -/
def joinSegs (m : Map τ ν) (sep : τ) : List (List τ) → List (Seg τ ν)
  | [] => []
  | [w] => wordSegs m w
  | w :: w' :: ws => wordSegs m w ++ .tok sep :: joinSegs m sep (w' :: ws)

theorem prefix_of_sepFree {key a rest : List τ} {sep : τ} (hs : sep ∉ key)
    (h : key <+: a ++ sep :: rest) : key <+: a := by
  induction a generalizing key with
  | nil =>
    cases key with
    | nil => exact List.prefix_rfl
    | cons c key =>
      rw [List.nil_append, List.cons_prefix_cons] at h
      exact absurd (by simp [h.1]) hs
  | cons x a ih =>
    cases key with
    | nil => exact List.nil_prefix
    | cons c key =>
      rw [List.cons_append, List.cons_prefix_cons] at h
      rw [List.cons_prefix_cons]
      exact ⟨h.1, ih (fun hm => hs (by simp [hm])) h.2⟩

/-- What follows a word: nothing, or the separator. -/
def Follows (sep : τ) (rest : List τ) : Prop := rest = [] ∨ ∃ r, rest = sep :: r

theorem prefix_of_follows {key a rest : List τ} {sep : τ} (hs : sep ∉ key)
    (hf : Follows sep rest) (h : key <+: a ++ rest) : key <+: a := by
  rcases hf with rfl | ⟨r, rfl⟩
  · rwa [List.append_nil] at h
  · exact prefix_of_sepFree hs h

theorem ll_word {m : Map τ ν} {sep : τ} {ws : List (List τ)} (hw : WholeWords m sep ws)
    {w rest : List τ} (hm : w ∈ ws) (hf : Follows sep rest) {gs : List (Seg τ ν)}
    (h : LeftmostLongest m rest gs) : LeftmostLongest m (w ++ rest) (wordSegs m w ++ gs) := by
  unfold wordSegs
  cases hv : m w with
  | some v =>
    refine LeftmostLongest.hit ?_ hv ?_ h
    · rintro rfl
      rw [hw.nonempty] at hv
      cases hv
    · intro w' h1 h2
      exact (prefix_of_follows (hw.sepFree _ h2) hf h1).length_le
  | none =>
    have key : ∀ b, b <:+ w → LeftmostLongest m (b ++ rest) (b.map .tok ++ gs) := by
      intro b
      induction b with
      | nil => intro _; exact h
      | cons c b ih =>
        intro hb
        refine LeftmostLongest.tok ?_ (ih ((List.suffix_cons c b).trans hb))
        intro w' h1 h2
        by_contra h3
        have h4 := prefix_of_follows (a := c :: b) (hw.sepFree _ h3) hf h1
        have h5 := hw.whole w hm w' h3 (h4.isInfix.trans hb.isInfix)
        exact h3 (h5 ▸ hv)
    exact key w List.suffix_rfl

theorem ll_join {m : Map τ ν} {sep : τ} {ws : List (List τ)} (hw : WholeWords m sep ws) :
    ∀ ws', (∀ w ∈ ws', w ∈ ws) →
      LeftmostLongest m (List.intercalate [sep] ws') (joinSegs m sep ws')
  | [], _ => by simpa [List.intercalate, joinSegs] using LeftmostLongest.nil
  | [w], hs => by
    have := ll_word hw (hs w (by simp)) (Or.inl rfl) (LeftmostLongest.nil (m := m))
    simpa [List.intercalate, joinSegs] using this
  | w :: w' :: ws', hs => by
    have ih := ll_join hw (w' :: ws') fun x hx => hs x (by simp at hx ⊢; right; exact hx)
    have e : List.intercalate [sep] (w :: w' :: ws') =
        w ++ sep :: List.intercalate [sep] (w' :: ws') := by
      simp [List.intercalate, List.intersperse]
    rw [e]
    refine ll_word hw (hs w (by simp)) (Or.inr ⟨_, rfl⟩) ?_
    refine LeftmostLongest.tok ?_ ih
    intro key h1 h2
    by_contra h3
    have h4 := prefix_of_sepFree (a := []) (hw.sepFree _ h3) h1
    exact h2 (List.prefix_nil.1 h4)

/-- The texts of the occurrences. -/
def hitText : Seg τ ν → Option (List τ)
  | .tok _ => none
  | .hit w _ => some w

theorem filterMap_wordSegs (m : Map τ ν) (w : List τ) :
    (wordSegs m w).filterMap hitText = if (m w).isSome then [w] else [] := by
  unfold wordSegs
  cases m w with
  | some v => rfl
  | none =>
    simp only [Option.isSome_none, Bool.false_eq_true, if_false]
    induction w with
    | nil => rfl
    | cons c w ih => simp [hitText]

theorem filterMap_joinSegs (m : Map τ ν) (sep : τ) : ∀ ws : List (List τ),
    (joinSegs m sep ws).filterMap hitText = ws.filter fun w => (m w).isSome
  | [] => rfl
  | [w] => by
    rw [joinSegs, filterMap_wordSegs, List.filter_cons]
    rfl
  | w :: w' :: ws => by
    rw [joinSegs, List.filterMap_append, filterMap_wordSegs, List.filterMap_cons,
      List.filter_cons, show hitText (Seg.tok (ν := ν) sep) = none from rfl,
      filterMap_joinSegs m sep (w' :: ws)]
    split_ifs <;> rfl

theorem replaced_append (tokv : ν → List τ) (a b : List (Seg τ ν)) :
    replaced tokv (a ++ b) = replaced tokv a ++ replaced tokv b := by
  induction a with
  | nil => rfl
  | cons g a ih => cases g <;> simp [replaced, ih]

theorem replaced_wordSegs (tokv : ν → List τ) (m : Map τ ν) (w : List τ) :
    replaced tokv (wordSegs m w) = match m w with
      | some v => tokv v
      | none => w := by
  unfold wordSegs
  cases m w with
  | some v => simp [replaced]
  | none =>
    simp only
    induction w with
    | nil => rfl
    | cons c w ih => simpa [replaced] using ih

theorem replaced_joinSegs (tokv : ν → List τ) (m : Map τ ν) (sep : τ) : ∀ ws : List (List τ),
    replaced tokv (joinSegs m sep ws) = List.intercalate [sep] (substituted tokv m ws)
  | [] => rfl
  | [w] => by
    rw [joinSegs, replaced_wordSegs]
    simp [substituted, List.intercalate]
  | w :: w' :: ws => by
    rw [joinSegs, replaced_append, replaced_wordSegs, replaced,
      replaced_joinSegs tokv m sep (w' :: ws)]
    simp [substituted, List.intercalate]

variable [DecidableEq τ]

/-- **C182.** Searching a text of words joined by a separator finds exactly the stored words, in the
order of the text and as often as they stand there. -/
theorem C182_findall (tok : κ → List τ) (detok : List τ → κ) (t : Trie τ ν) (sep : τ)
    (ws : List (List τ)) (hw : WholeWords t.root.get sep ws) (text : κ)
    (ht : tok text = List.intercalate [sep] ws) :
    findall tok detok t false text =
      .ok ((ws.filter fun w => (t.root.get w).isSome).map detok) := by
  obtain ⟨gs, h1, h2⟩ := C62_findall tok detok t text
  rw [ht] at h1
  have := ll_unique h1 (ll_join hw ws fun _ h => h)
  subst this
  rw [h2, ← filterMap_joinSegs _ sep, List.map_filterMap]
  congr 2
  funext g
  cases g <;> rfl

/-- **C182.** The test's claim: when the stored keys are among the words and the words are distinct,
every key is found exactly once and nothing else is found. -/
theorem C182_each_key_once (tok : κ → List τ) (detok : List τ → κ) (t : Trie τ ν) (sep : τ)
    (ws : List (List τ)) (hw : WholeWords t.root.get sep ws) (hd : ws.Nodup)
    (hk : ∀ key, t.root.get key ≠ none → key ∈ ws) (text : κ)
    (ht : tok text = List.intercalate [sep] ws) :
    ∃ found : List (List τ), findall tok detok t false text = .ok (found.map detok) ∧
      found.Nodup ∧ ∀ key, key ∈ found ↔ t.root.get key ≠ none := by
  refine ⟨_, C182_findall tok detok t sep ws hw text ht, hd.filter _, ?_⟩
  intro key
  rw [List.mem_filter, Option.isSome_iff_ne_none]
  exact ⟨fun h => h.2, fun h => ⟨hk key h, h⟩⟩

/-- **C182.** Translating a text of words joined by a separator replaces each stored word by its
value and leaves the others and the separators alone. -/
theorem C182_translate (tok : κ → List τ) (detok : List τ → κ) (t : Trie τ κ) (sep : τ)
    (ws : List (List τ)) (hw : WholeWords t.root.get sep ws) (text : κ)
    (ht : tok text = List.intercalate [sep] ws) :
    translate tok detok t text =
      .ok (detok (List.intercalate [sep] (substituted tok t.root.get ws))) := by
  obtain ⟨gs, ⟨h1, h2⟩, -⟩ := C61_translate tok detok t text
  rw [ht] at h1
  have := ll_unique h1 (ll_join hw ws fun _ h => h)
  subst this
  rw [h2, replaced_joinSegs]

/-- **C182.** Inside a longer word a stored key is found all the same. -/
theorem C182_not_whole_words :
    findall (fun w : List Nat => w) id
      (afterCalls (fun w : List Nat => w) id (new : Trie Nat (List Nat)) [.set [1, 2] []])
      false (List.intercalate [0] [[3, 1, 2], [1, 2]]) = .ok [[1, 2], [1, 2]] := by
  decide +kernel

/-- **C183.** A replacement of words is undone by the trie that maps the values back: every stored
word goes to a value whose words are stored in the second trie with the first word as value, and no
other word of the text is stored there. -/
theorem C183_undo (tok : κ → List τ) (detok : List τ → κ) (htd : ∀ w, tok (detok w) = w)
    (hdt : ∀ x, detok (tok x) = x) (t t' : Trie τ κ) (sep : τ)
    (ws : List (List τ)) (hw : WholeWords t.root.get sep ws)
    (hw' : WholeWords t'.root.get sep (substituted tok t.root.get ws))
    (hback : ∀ w ∈ ws, ∀ v, t.root.get w = some v → t'.root.get (tok v) = some (detok w))
    (hother : ∀ w ∈ ws, t.root.get w = none → t'.root.get w = none) (text : κ)
    (ht : tok text = List.intercalate [sep] ws) :
    ∃ mid, translate tok detok t text = .ok mid ∧ translate tok detok t' mid = .ok text := by
  refine ⟨_, C182_translate tok detok t sep ws hw text ht, ?_⟩
  rw [C182_translate tok detok t' sep _ hw' _ (htd _)]
  have : substituted tok t'.root.get (substituted tok t.root.get ws) = ws := by
    unfold substituted
    rw [List.map_map]
    conv_rhs => rw [← List.map_id ws]
    refine List.map_congr_left fun w hm => ?_
    simp only [Function.comp_apply, id]
    cases hv : t.root.get w with
    | some v => simp [hback w hm v hv, htd]
    | none => simp [hother w hm hv]
  rw [this, ← ht, hdt]

/-- **C183.** Replacing once is enough when no value contains a key: a second run changes nothing. -/
theorem C183_idempotent (tok : κ → List τ) (detok : List τ → κ) (htd : ∀ w, tok (detok w) = w)
    (t : Trie τ κ) (sep : τ) (ws : List (List τ)) (hw : WholeWords t.root.get sep ws)
    (hv : ∀ w ∈ ws, ∀ v, t.root.get w = some v →
      ∀ key, t.root.get key ≠ none → ¬ key <:+: tok v)
    (text : κ) (ht : tok text = List.intercalate [sep] ws) :
    ∃ mid, translate tok detok t text = .ok mid ∧ translate tok detok t mid = .ok mid := by
  refine ⟨_, C182_translate tok detok t sep ws hw text ht, ?_⟩
  have hw' : WholeWords t.root.get sep (substituted tok t.root.get ws) := by
    refine ⟨hw.sepFree, hw.nonempty, ?_⟩
    intro x hx key hk hi
    obtain ⟨w, hm, rfl⟩ := List.mem_map.1 hx
    cases hv' : t.root.get w with
    | some v =>
      simp only [hv'] at hi
      exact absurd hi (hv w hm v hv' key hk)
    | none =>
      simp only [hv'] at hi ⊢
      exact hw.whole w hm key hk hi
  rw [C182_translate tok detok t sep _ hw' _ (htd _)]
  congr 3
  unfold substituted
  rw [List.map_map]
  refine List.map_congr_left fun w hm => ?_
  simp only [Function.comp_apply]
  cases hv' : t.root.get w with
  | none => simp [hv']
  | some v =>
    cases h2 : t.root.get (tok v) with
    | none => simp
    | some v2 => exact absurd List.infix_rfl (hv w hm v hv' (tok v) (by simp [h2]))

/-! ### Examples -/

/-- The keys `[1, 2]` and `[2, 1]`, replaced by `[5]` and `[6, 6]`. -/
def wordTrie : Trie Nat (List Nat) := update (fun w => w) new [([1, 2], [5]), ([2, 1], [6, 6])]

/-- The words back. -/
def wordTrieBack : Trie Nat (List Nat) :=
  update (fun w => w) new [([5], [1, 2]), ([6, 6], [2, 1])]

/-- The words of the example text. -/
def wordText : List (List Nat) := [[1, 2], [3], [], [2, 1], [1, 1], [1, 2]]

theorem get_wordTrie (key : List Nat) :
    wordTrie.root.get key = if key = [2, 1] then some [6, 6] else
      if key = [1, 2] then some [5] else none := by
  rw [wordTrie, get_update]
  simp [upd, new, Node.get_empty]

theorem get_wordTrieBack (key : List Nat) :
    wordTrieBack.root.get key = if key = [6, 6] then some [2, 1] else
      if key = [5] then some [1, 2] else none := by
  rw [wordTrieBack, get_update]
  simp [upd, new, Node.get_empty]

theorem wholeWords_keys {t : Trie Nat (List Nat)} {sep : Nat} {ws : List (List Nat)}
    (keys : List (List Nat)) (h : ∀ key, t.root.get key ≠ none → key ∈ keys)
    (h1 : ∀ key ∈ keys, sep ∉ key) (h2 : [] ∉ keys)
    (h3 : ∀ w ∈ ws, ∀ key ∈ keys, key <:+: w → key = w) : WholeWords t.root.get sep ws := by
  refine ⟨fun key hk => h1 key (h key hk), ?_, fun w hw key hk => h3 w hw key (h key hk)⟩
  by_contra hn
  exact h2 (h [] hn)

theorem wordTrie_whole (ws : List (List Nat))
    (h : ∀ w ∈ ws, ∀ key ∈ [[1, 2], [2, 1]], key <:+: w → key = w) :
    WholeWords wordTrie.root.get 0 ws := by
  refine wholeWords_keys [[1, 2], [2, 1]] ?_ (by decide) (by decide) h
  intro key hk
  rw [get_wordTrie] at hk
  split_ifs at hk with h1 h2 <;> simp_all

theorem wordTrieBack_whole (ws : List (List Nat))
    (h : ∀ w ∈ ws, ∀ key ∈ [[5], [6, 6]], key <:+: w → key = w) :
    WholeWords wordTrieBack.root.get 0 ws := by
  refine wholeWords_keys [[5], [6, 6]] ?_ (by decide) (by decide) h
  intro key hk
  rw [get_wordTrieBack] at hk
  split_ifs at hk with h1 h2 <;> simp_all

example : findall (fun w : List Nat => w) id wordTrie false [1, 2, 0, 3, 0, 0, 2, 1, 0, 1, 1, 0, 1, 2] =
    .ok [[1, 2], [2, 1], [1, 2]] := by
  rw [C182_findall (fun w : List Nat => w) id wordTrie 0 wordText
    (wordTrie_whole _ (by decide +kernel)) _ (by decide +kernel)]
  simp [wordText, get_wordTrie]

example : ∃ found : List (List Nat), findall (fun w : List Nat => w) id wordTrie false
      [1, 2, 0, 3, 0, 2, 1] = .ok (found.map id) ∧
      found.Nodup ∧ ∀ key, key ∈ found ↔ wordTrie.root.get key ≠ none :=
  C182_each_key_once (fun w : List Nat => w) id wordTrie 0 [[1, 2], [3], [2, 1]]
    (wordTrie_whole _ (by decide +kernel)) (by decide)
    (by intro key hk; rw [get_wordTrie] at hk; split_ifs at hk <;> simp_all) _ (by decide +kernel)

example : translate (fun w : List Nat => w) id wordTrie [1, 2, 0, 3, 0, 0, 2, 1, 0, 1, 1, 0, 1, 2] =
    .ok [5, 0, 3, 0, 0, 6, 6, 0, 1, 1, 0, 5] := by
  rw [C182_translate (fun w : List Nat => w) id wordTrie 0 wordText
    (wordTrie_whole _ (by decide +kernel)) _ (by decide +kernel)]
  simp [substituted, wordText, get_wordTrie, List.intercalate]

theorem substituted_wordText : substituted (fun w => w) wordTrie.root.get wordText =
    [[5], [3], [], [6, 6], [1, 1], [5]] := by
  simp [substituted, wordText, get_wordTrie]

example : ∃ mid, translate (fun w : List Nat => w) id wordTrie
      [1, 2, 0, 3, 0, 0, 2, 1, 0, 1, 1, 0, 1, 2] = .ok mid ∧
    translate (fun w : List Nat => w) id wordTrieBack mid =
      .ok [1, 2, 0, 3, 0, 0, 2, 1, 0, 1, 1, 0, 1, 2] := by
  refine C183_undo (fun w : List Nat => w) id (fun _ => rfl) (fun _ => rfl) wordTrie wordTrieBack 0
    wordText (wordTrie_whole _ (by decide +kernel)) ?_ ?_ ?_ _ (by decide +kernel)
  · rw [substituted_wordText]
    exact wordTrieBack_whole _ (by decide +kernel)
  · simp [wordText, get_wordTrie, get_wordTrieBack]
  · simp [wordText, get_wordTrie, get_wordTrieBack]

example : ∃ mid, translate (fun w : List Nat => w) id wordTrie
      [1, 2, 0, 3, 0, 0, 2, 1, 0, 1, 1, 0, 1, 2] = .ok mid ∧
    translate (fun w : List Nat => w) id wordTrie mid = .ok mid := by
  refine C183_idempotent (fun w : List Nat => w) id (fun _ => rfl) wordTrie 0
    wordText (wordTrie_whole _ (by decide +kernel)) ?_ _ (by decide +kernel)
  intro w _ v hv key hk
  have hk' : key = [2, 1] ∨ key = [1, 2] := by
    rw [get_wordTrie] at hk
    split_ifs at hk <;> simp_all
  have hv' : v = [6, 6] ∨ v = [5] := by
    rw [get_wordTrie] at hv
    split_ifs at hv <;> simp_all
  rcases hk' with rfl | rfl <;> rcases hv' with rfl | rfl <;> decide +kernel

end Trie
end Verif
