/-!
# How a shell splits a command line into words

Only what matters for commands made of plain words and words in single quotes: blanks separate words, and everything between two single
quotes is taken literally.
-/

namespace Honeycomb

/-- The words of the rest of a command line, after `word` (if a word was begun), inside quotes or not. `none`: a quote is not closed. -/
def splitWords (word : Option (List Char)) : Bool → List Char → Option (List (List Char))
  | true, [] => none
  | false, [] => some word.toList
  | true, c :: cs => if c = '\'' then splitWords (some (word.getD [])) false cs else splitWords (some (word.getD [] ++ [c])) true cs
  | false, c :: cs =>
    if c = '\'' then splitWords (some (word.getD [])) true cs
    else if c = ' ' then (splitWords none false cs).map (word.toList ++ ·)
    else splitWords (some (word.getD [] ++ [c])) false cs

/-- The words of a command line. -/
def shellWords (command : String) : Option (List String) := (splitWords none false command.toList).map (List.map String.ofList)

example : shellWords "cat 'my file' b" = some ["cat", "my file", "b"] := by decide +kernel
example : shellWords "cat 'my file" = none := by decide +kernel

end Honeycomb
