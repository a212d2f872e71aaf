import Verif.Spec.Json

/-!
# Writing trees in block style

A tree of strings, sequences and mappings, the events it stands for, and a way to write it down:
strings in double quotes, everything but printable ASCII escaped, and collections in block style, with any
indentation. Empty collections are `[]` and `{}`. -/

namespace Yary.Spec

mutual

/-- A value. -/
inductive Tree where
  | text (cs : List Char)
  | seq (l : TreeList)
  | map (l : TreePairs)

/-- The entries of a sequence. -/
inductive TreeList where
  | nil
  | cons (t : Tree) (l : TreeList)

/-- The keys and values of a mapping, in order. -/
inductive TreePairs where
  | nil
  | cons (k : List Char) (t : Tree) (l : TreePairs)

end

mutual

/-- The events of a tree, as a node of the given kind. -/
def Tree.events (kind : NodeKind) : Tree → List EventData
  | .text cs => [jsonString kind cs]
  | .seq l => .SequenceStart { anchor := none, tag := none, kind } :: (l.events ++ [.SequenceEnd])
  | .map l => .MappingStart { anchor := none, tag := none, kind } :: (l.events ++ [.MappingEnd])

/-- The events of entries. -/
def TreeList.events : TreeList → List EventData
  | .nil => []
  | .cons t l => t.events .Entry ++ l.events

/-- The events of keys and values. -/
def TreePairs.events : TreePairs → List EventData
  | .nil => []
  | .cons k t l => jsonString .Key k :: (t.events .Value ++ l.events)

end

/-- The `k` last digits of a hexadecimal number. -/
def hexDigits : Nat → Nat → Str
  | 0, _ => []
  | k + 1, n => hexDigits k (n / 16) ++ [if n % 16 < 10 then b! '0' + n % 16 else b! 'A' + (n % 16 - 10)]

/-- A character in double quotes. -/
def writeChar (c : Char) : Str :=
  if 0x20 ≤ c.toNat ∧ c.toNat < 0x7F ∧ c ≠ '"' ∧ c ≠ '\\' then [c.toNat] else 0x5C :: b! 'U' :: hexDigits 8 c.toNat

/-- A string in double quotes. -/
def writeString (cs : List Char) : Str := b! '"' :: (cs.flatMap writeChar ++ [b! '"'])

/-- Indentation. -/
def indentation (n : Nat) : Str := List.replicate n 0x20

mutual

/-- What follows the `-`, the `:` or the `---`, up to and including the end of the line. A collection is in the
lines after it, in the column `n`; those in it are indented by another `step`. -/
def Tree.written (step n : Nat) : Tree → Str
  | .text cs => 0x20 :: (writeString cs ++ [0x0A])
  | .seq .nil => bytes! " []\n"
  | .map .nil => bytes! " {}\n"
  | .seq (.cons t l) => 0x0A :: TreeList.written step n (.cons t l)
  | .map (.cons k t l) => 0x0A :: TreePairs.written step n (.cons k t l)

/-- The lines of a sequence in the column `n`. -/
def TreeList.written (step n : Nat) : TreeList → Str
  | .nil => []
  | .cons t l => indentation n ++ b! '-' :: (t.written step (n + step) ++ TreeList.written step n l)

/-- The lines of a mapping in the column `n`. -/
def TreePairs.written (step n : Nat) : TreePairs → Str
  | .nil => []
  | .cons k t l => indentation n ++ (writeString k ++ b! ':' :: (t.written step (n + step) ++ TreePairs.written step n l))

end

mutual

/-- No key is longer than the library takes: as it is written, with the quotes, at most 1024 bytes. -/
def Tree.KeysFit : Tree → Prop
  | .text _ => True
  | .seq l => l.KeysFit
  | .map l => l.KeysFit

/-- The same for entries. -/
def TreeList.KeysFit : TreeList → Prop
  | .nil => True
  | .cons t l => t.KeysFit ∧ l.KeysFit

/-- The same for keys and values. -/
def TreePairs.KeysFit : TreePairs → Prop
  | .nil => True
  | .cons k t l => (writeString k).length ≤ 1024 ∧ t.KeysFit ∧ l.KeysFit

end

/-- A document with the tree. -/
def treeText (step : Nat) (t : Tree) : Str := bytes! "---" ++ t.written step 0

/-- Its events. -/
def treeStream (t : Tree) : List EventData :=
  .StreamStart .UTF8 :: .DocumentStart { version := { major := 1, minor := 2 }, tags := knownTags } false ::
    (t.events .Root ++ [.DocumentEnd true, .StreamEnd])

end Yary.Spec
