import Verif.WordSet.Model
import Verif.File.Model

/-!
# Model of the read-only properties and of `repr` of a `WordSet` (nmd/nmd_word_set.py:458-496)
-/

namespace Verif

/-- `unicode_normalizer` as an object (nmd/nmd_word_set.py:71-99): `None`, one of the three functions
of the module, or another callable with its truth value and its `__name__` (without one: its `repr`). -/
inductive NormObj where
  | absent
  | nfc
  | nfkc
  | stripMarks
  | other (truth : Bool) (name : List Char)
deriving DecidableEq

/-- `norm_name`, nmd/nmd_word_set.py:478-488. -/
def NormObj.text : NormObj → List Char
  | .absent => "None".toList
  | .nfc => "NFC".toList
  | .nfkc => "NFKC".toList
  | .stripMarks => "NFD_STRIP_MARKS".toList
  | .other truth name => if truth then name else "None".toList

/-- `repr` of an int (nmd/nmd_word_set.py:492, 495). -/
def intRepr (n : ℤ) : List Char := if n < 0 then '-' :: File.digits n.natAbs else File.digits n.natAbs

/-- `repr` of a tuple of ints (nmd/nmd_word_set.py:492). -/
def tupleRepr : List ℤ → List Char
  | [] => ['(', ')']
  | [n] => '(' :: (intRepr n ++ [',', ')'])
  | n :: ns => '(' :: (intRepr n ++ (ns.flatMap fun m => ',' :: ' ' :: intRepr m) ++ [')'])

/-- `repr` of a bool (nmd/nmd_word_set.py:493). -/
def boolRepr (b : Bool) : List Char := if b then "True".toList else "False".toList

/-- `ngram_sizes`, nmd/nmd_word_set.py:460-463. -/
def WS.ngramSizes (st : WS) : List ℤ := st.nList

/-- `case_sensitive`, nmd/nmd_word_set.py:465-468. -/
def WS.caseSensitiveProperty (st : WS) : Bool := st.caseSensitive

/-- `WordSet.__repr__`, nmd/nmd_word_set.py:476-496 (for the class itself, not a subclass). -/
def WS.repr (st : WS) (norm : NormObj) : List Char :=
  "WordSet(ngram_sizes=".toList ++ (tupleRepr st.ngramSizes ++ (", case_sensitive=".toList ++
    (boolRepr st.caseSensitiveProperty ++ (", unicode_normalizer=".toList ++ (norm.text ++
      (", size=".toList ++ (intRepr st.len ++ [')'])))))))

end Verif
