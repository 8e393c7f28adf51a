import Verif.Spec.Demo

/-!
# What the demo program should print
-/

namespace Lev.Spec

/-- The question put to the user. -/
def question : Str := lit "\nEnter a query term (or nothing to exit).\nquery> "

/-- The line for the term `t` at distance `n` from the query term `q`. -/
def resultLine (q t : Str) (n : Nat) : Str := lit "d(\"" ++ q ++ lit "\", \"" ++ t ++ lit "\") = " ++ numeral n ++ lit "\n"

/-- The whole conversation: each query term with its answers, then the empty one. -/
def conversation (answers : List (Str × List (Str × Nat))) : Str :=
  answers.flatMap (fun x => question ++ x.2.flatMap fun c => resultLine x.1 c.1 c.2) ++ question ++ lit "\nExiting ...\n"

/-- No term that is printed contains a newline. -/
def OneLine (answers : List (Str × List (Str × Nat))) : Prop :=
  ∀ x ∈ answers, NoNewline x.1 ∧ ∀ c ∈ x.2, NoNewline c.1

/-- The help text. -/
def helpText : Str := (["liblevenshtein-demo :: Interactively queries a dictionary using the",
  "configuration specified at the comand-line. Either a valid --dictionary-path or",
  "a --serialization-path must be provided.",
  "--------------------------------------------------------------------------------",
  "  -h|--help                    Prints this help text.",
  "  --dictionary-path <PATH>     Path to the dictionary text file (one term per",
  "                               line).",
  "  --serialization-path <PATH>  Path to the file containing the serialized",
  "                               dictionary.",
  "  --standard                   [Optional] Use the standard Levenshtein distance ",
  "                               (substitutions, insertions, and deletions).",
  "  --transposition              [Optional] Use the standard Levenshtein distance",
  "                               extended with transposition.",
  "  --merge-and-split            [Optional] Use the standard Levenshtein distance",
  "                               extended with merge and split.",
  "  --max-distance <VALUE>       Maximum edit distance from the query term for ",
  "                               spelling candidates (default: 2).",
  "",
  "Examples:",
  "",
  "  ./liblevenshtein-demo --dictionary-path ../programming-languages.txt \\",
  "                        --serialization-path programming-languages.pb"] : List String).flatMap fun l => lit l ++ [10]

/-- A path in quotes: quotes and backslashes inside are marked by a backslash. -/
def quoted (p : Str) : Str := lit "\"" ++ p.flatMap (fun c => if c ∈ lit "\"\\" then lit "\\" ++ [c] else [c]) ++ lit "\""

/-- The configuration. -/
def configText (dict ser : Str) (A : Algorithm) (n : Nat) : Str :=
  lit "Using configuration:\n  dictionary-path: " ++ quoted dict ++ lit "\n  serialization-path: " ++ quoted ser ++
  lit "\n  algorithm: " ++ (match A with
    | .standard => lit "standard"
    | .transposition => lit "transposition"
    | .mergeAndSplit => lit "merge-and-split") ++
  lit "\n  max-distance: " ++ numeral n ++ lit "\n"

/-- What is said about arguments that end the program. -/
inductive Complaint (ex : Str → Bool) : List Str → Str → Prop
  | help {w : Str} {rest : List Str} : w = lit "-h" ∨ w = lit "--help" → Complaint ex (w :: rest) helpText
  | missing {w : Str} : w ∈ [lit "--dictionary-path", lit "--serialization-path", lit "--max-distance"] →
      Complaint ex [w] (lit "Not enough command-line args!\n")
  | noFile {p : Str} {rest : List Str} : ex p = false → Complaint ex (lit "--dictionary-path" :: p :: rest)
      (lit "--dictionary-path=<PATH> must exist!\n--dictionary-path=" ++ quoted p ++ lit "\n")
  | unknown {w : Str} {rest : List Str} : w ∉ cliWords →
      Complaint ex (w :: rest) (lit "Invalid argument: " ++ w ++ lit "\n" ++ helpText)

/-- What is said if neither file exists. -/
def noFiles (dict ser : Str) : Str :=
  lit "Either --dictionary-path=<PATH> or --serialization-path=<PATH> must exist\n--dictionary-path=" ++ quoted dict ++
  lit "\n--serialization-path=" ++ quoted ser ++ lit "\n"

end Lev.Spec
