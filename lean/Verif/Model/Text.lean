/-!
# The names of the macro in the text of an attribute

Attributes that are given as strings are rewritten as text before they are parsed: `deku::reader` becomes the name of the
variable in the emitted code, `__deku_reader`, and so on. Text is a list of characters.
-/

namespace Deku.Text

/-- `str::contains`. -/
def contains (pat : List Char) : List Char → Bool
  | [] => pat.isEmpty
  | c :: cs => pat.isPrefixOf (c :: cs) || contains pat cs

/-- `str::replace`: from the left, occurrences that do not overlap. `skip` characters belong to the occurrence before. -/
def replaceFrom (pat new : List Char) : Nat → List Char → List Char
  | _, [] => []
  | skip + 1, _ :: cs => replaceFrom pat new skip cs
  | 0, c :: cs =>
    if pat.isPrefixOf (c :: cs) then new ++ replaceFrom pat new (pat.length - 1) cs else c :: replaceFrom pat new 0 cs

def replace (pat new s : List Char) : List Char := replaceFrom pat new 0 s

/-- `apply_replacements` (deku-derive/src/lib.rs:1053-1073); `none` is the compile error. -/
def applyReplacements (s : List Char) : Option (List Char) :=
  if !contains "deku".toList s then some s
  else if contains "__deku_".toList s then none
  else some <|
    replace "deku::byte_offset".toList "__deku_byte_offset".toList <|
    replace "deku::bit_offset".toList "__deku_bit_offset".toList <|
    replace "deku::writer".toList "__deku_writer".toList <|
    replace "deku::reader".toList "__deku_reader".toList s

end Deku.Text
