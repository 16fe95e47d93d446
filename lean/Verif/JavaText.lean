import Verif.Text
/-!
# Strings between Java and the library

Models how src/java/jni/jlightgrep.cpp hands strings to the library and back.  A Java string
is the list of its UTF-16 units.  The conversions are the JVM's; what the JNI specification
says about them ("Modified UTF-8 Strings") is modelled.
-/
namespace Verif.JavaText
open Verif.Parser (Env PatternOpts Res)
open Verif.Regex (Tree)
open Verif.Encoders (Node)

/-- One unit in modified UTF-8: one to three bytes, the unit 0 as two. -/
def modified (u : Nat) : List Nat :=
  if u = 0 then [0xC0, 0x80]
  else if u < 0x80 then [u]
  else if u < 0x800 then [0xC0 + u / 64, 0x80 + u % 64]
  else [0xE0 + u / 4096, 0x80 + u / 64 % 64, 0x80 + u % 64]

/-- `GetStringUTFChars`, called in `unwrap`, jlightgrep.cpp 233–247; the terminating null is
left out. -/
def utfChars (s : List Nat) : List Nat := s.flatMap modified

/-- Reading a C string: up to the first null. -/
def cString (bytes : List Nat) : List Nat := bytes.takeWhile (· ≠ 0)

/-- `PatternHandle.parsePatternImpl`, jlightgrep.cpp 303–337: the string's modified UTF-8 is given
to `lg_parse_pattern` as the text of the pattern. -/
def parsePattern (env : Env) (p : PatternOpts) (s : List Nat) : Res (Tree Node × Nat) :=
  Text.parseText env p ((cString (utfChars s)).map UInt8.ofNat)

/-- `NewStringUTF`, called in jlightgrep.cpp 369, 372 and 818: the string whose modified UTF-8
stands before the first null.  For bytes that are not modified UTF-8 JNI leaves open what
happens; then there is no such string. -/
def NewString (bytes : List Nat) (s : List Nat) : Prop :=
  (∀ u ∈ s, u < 0x10000) ∧ utfChars s = cString bytes

end Verif.JavaText
