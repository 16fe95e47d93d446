import Verif.RangeSet
/-!
# ICU converters

Models `ICUConverter` of `src/lib/icuconverter.cpp`, the only part of the encoders and decoders
that calls ICU.  A converter is what its three functions answer: since both directions are
reset before each character (`ucnv_resetToUnicode`, and `reset` of `ucnv_convertEx`), the
answers are taken to be functions of the arguments.  Which functions they are is ICU's; they
are arbitrary here, and what is assumed of them is `Converter.Ok`.
-/
namespace Verif

/-- `ICUConverter`, icuconverter.cpp 23–207. -/
structure Converter where
  /-- `validCodePoints`, icuconverter.cpp 130–146: the characters that are converted there and
  back. -/
  valid : RangeSet.Vec
  /-- `max_bytes`, icuconverter.cpp 126–127. -/
  maxLen : Nat
  /-- `cp_to_bytes`, icuconverter.cpp 181–207; `[]` is a return of 0. -/
  write : Nat → List Nat
  /-- `bytes_to_cp`, icuconverter.cpp 148–179: the character at the start of the bytes and the
  number of its bytes; `none` is a return of 0. -/
  read : List Nat → Option (Nat × Nat)

/-- What is assumed of a converter when it writes: what it writes are bytes, not more than the
buffer holds, and exactly the characters it names as valid have an encoding. -/
structure Converter.Ok (t : Converter) : Prop where
  wf : RangeSet.WF 0x110000 t.valid
  bytes : ∀ c, ∀ b ∈ t.write c, b < 256
  short : ∀ c, (t.write c).length ≤ t.maxLen
  full : ∀ c, RangeSet.has t.valid c = true ↔ t.write c ≠ []

/-- What is assumed of a converter when it reads: it uses up at least one byte and not more than
there are; it reads back the characters it writes, whatever follows. -/
structure Converter.Reads (t : Converter) : Prop where
  some : ∀ bs c n, t.read bs = some (c, n) → 0 < n ∧ n ≤ bs.length
  back : ∀ c rest, t.write c ≠ [] → t.read (t.write c ++ rest) = .some (c, (t.write c).length)

end Verif
