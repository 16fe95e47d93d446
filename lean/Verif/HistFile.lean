import Verif.SearchCmd
/-!
# The histogram file

What the search command leaves in the file named by `--histogram-file`.
-/
namespace Verif.Cmd

/-- One line of the file, src/cmd/hitwriter.cpp:170-175; the separator is a tab
(src/cmd/main.cpp:325). -/
def histLine (e : Key × Nat) : Str :=
  decimal e.2 ++ [9] ++ escapeControlChars e.1.text ++ [9] ++ decimal e.1.idx ++ [9] ++ escapeControlChars e.1.pattern ++ [10]

/-- src/cmd/hitwriter.cpp:158-176 `HistogramInfo::writeHistogram`: the entries are copied out of a
hash table, in an order that is not specified, and sorted with `std::sort`, which leaves entries
that compare equal in an order that is not specified either.  So this is a relation: `out` is one of
the files that can be written. -/
def WriteHistogram (hist : List (Key × Nat)) (out : Str) : Prop :=
  ∃ es : List (Key × Nat), es.Perm hist ∧ es.Pairwise (fun a b => histogramKeyComp b a = false) ∧ out = es.flatMap histLine

/-- What is in the file when the command ends: src/cmd/main.cpp:313-320 empties it, 382-384 write it
unless an exception has been thrown. -/
def HistogramFile (s : CmdSt) (out : Str) : Prop :=
  if s.dead then out = [] else WriteHistogram s.out.hist.hist out

end Verif.Cmd
