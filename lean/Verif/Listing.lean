import Verif.Vm
import Verif.Graphviz
/-!
# The listing of a program (src/lib/program.cpp, src/lib/instructions.cpp)

This is what `lightgrep -c program` writes without `--binary`.  Texts are lists of bytes.
-/
namespace Verif.Listing
open Verif.Cmd (Str decimal)
open Verif.Graphviz (str)

/-- `std::hex << n`, src/lib/program.cpp:107, 117-118, 128, 133. -/
def hex (n : Nat) : Str := (Nat.toDigits 16 n).map Char.toNat

/-- `std::setfill(c) << std::setw(k)`, src/lib/program.cpp:107, 117, 128. -/
def pad (c k : Nat) (s : Str) : Str := List.replicate (k - s.length) c ++ s

/-- `HexCode<byte>`, src/lib/instructions.cpp:30-33, and behind it the byte as a character, src/lib/instructions.cpp:48-49. -/
def showByte (b : Nat) : Str := str "0x" ++ pad 48 2 (hex b) ++ str "/'" ++ [b]

/-- `testNot`, src/lib/instructions.cpp:40-42. -/
def testNot (flags : Nat) : Str := if flags % 2 = 1 then str "not " else []

/-- `HexCode<uint32_t>`, src/lib/instructions.cpp:35-38, and behind it the number with `std::dec`, src/lib/instructions.cpp:66. -/
def showWord (n : Nat) : Str := str "0x" ++ pad 48 8 (hex n) ++ str "/" ++ decimal n

/-- `Instruction::toString`, src/lib/instructions.cpp:45-102; `next` is the word behind the instruction. -/
def toString (w next : Nat) : Str :=
  let b1 := w / 256 % 256
  let b2 := w / 65536 % 256
  let b3 := w / 16777216 % 256
  let off := w / 256 % 16777216
  match w % 256 with
  | 0 => str "JmpTblRange " ++ showByte b2 ++ str "'-" ++ showByte b3 ++ str "'"
  | 1 => str "Byte " ++ testNot b1 ++ showByte b2 ++ str "'"
  | 2 => str "BitVector"
  | 3 => str "Either " ++ testNot b1 ++ showByte b2 ++ str "', " ++ showByte b3 ++ str "'"
  | 4 => str "Range " ++ testNot b1 ++ showByte b2 ++ str "'-" ++ showByte b3 ++ str "'"
  | 5 => str "Any"
  | 6 => str "Finish"
  | 7 => str "Fork " ++ showWord next
  | 8 => str "Jump " ++ showWord next
  | 9 => str "CheckHalt " ++ showWord off
  | 10 => str "Label " ++ decimal off
  | 11 => str "Match"
  | 12 => str "Halt"
  | 13 => str "AdjustStart -" ++ decimal off
  | _ => str "* UNRECOGNIZED *"

/-- `printIndex`, src/lib/program.cpp:106-109. -/
def printIndex (i : Nat) : Str := pad 48 8 (hex i) ++ [32]

/-- How many words `operator<<` takes for operands, src/lib/program.cpp:115-134. -/
def operands (w : Nat) : Nat :=
  match w % 256 with
  | 0 => w / 16777216 % 256 + 1 - w / 65536 % 256
  | 2 => 8
  | 7 => 1
  | 8 => 1
  | _ => 0

/-- The line of an operand, src/lib/program.cpp:117-118, 128, 133: `i` is its index, `j` counts the operands of the instruction. -/
def operandLine (w i j x : Nat) : Str :=
  match w % 256 with
  | 0 => printIndex i ++ pad 32 3 (hex (w / 65536 % 256 + j)) ++ str ": " ++ hex x ++ [10]
  | 2 => pad 48 8 (hex i) ++ [9] ++ hex x ++ [10]
  | _ => printIndex i ++ hex x ++ [10]

/-- The lines of operands from the given index on. -/
def operandLines (w : Nat) : Nat → Nat → List Nat → Str
  | _, _, [] => []
  | i, j, x :: xs => operandLine w i j x ++ operandLines w (i + 1) (j + 1) xs

/-- The loop of `operator<<`, src/lib/program.cpp:111-138, from index `i` on, with `n` turns left; `none` where it reads behind the end. -/
def listFrom : Nat → Nat → List Nat → Option Str
  | _, _, [] => some []
  | 0, _, _ :: _ => none
  | n + 1, i, w :: ws =>
    if ws.length < operands w then none
    else (listFrom n (i + 1 + operands w) (ws.drop (operands w))).map
      (printIndex i ++ toString w (ws.headD 0) ++ [10] ++ operandLines w (i + 1) 0 (ws.take (operands w)) ++ ·)

/-- `out << *p << std::endl`, src/cmd/lg_app.cpp:124. -/
def listing (code : List Nat) : Option Str := (listFrom code.length 0 code).map (· ++ [10])

end Verif.Listing
