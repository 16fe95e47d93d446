import Verif.Chain
/-!
# The table of encodings of a build with ICU

Models `src/enc/encodings.cpp`, the program that writes `include/lightgrep/encodings.h`.  What
it asks of ICU is in `Icu`, whose answers are arbitrary.  Not modelled: that a call of ICU
fails, which ends the program, and the text of the header around the two tables.
-/
namespace Verif.EncTable
open Verif.Chain (name)

abbrev Name := List UInt8

/-- An encoding as ICU lists it: `ucnv_getAvailableName`, and `ucnv_getAlias` for each alias. -/
structure Enc where
  name : Name
  aliases : List Name

/-- What ICU answers: the available encodings, and `ucnv_getStandardName`. -/
structure Icu where
  available : List Enc
  standardName : Name → Name → Option Name

/-- src/enc/encodings.cpp:60-62 -/
def standards : List Name :=
  [name "UTR22", name "IANA", name "MIME", name "IBM", name "WINDOWS", name "JAVA", []]

/-- src/enc/encodings.cpp:65-116 -/
def skip : List Name :=
  ["UTF-16", "UTF-16,version=1", "UTF-16,version=2", "UTF-16LE,version=1", "UTF-16BE,version=1", "UTF-32",
   "UTF16_OppositeEndian", "UTF16_PlatformEndian", "UTF32_OppositeEndian", "UTF32_PlatformEndian",
   "BOCU-1", "HZ", "IMAP-mailbox-name", "ISCII,version=0", "ISCII,version=1", "ISCII,version=2", "ISCII,version=3",
   "ISCII,version=4", "ISCII,version=5", "ISCII,version=6", "ISCII,version=7", "ISCII,version=8",
   "ISO_2022,locale=ja,version=0", "ISO_2022,locale=ja,version=1", "ISO_2022,locale=ja,version=2",
   "ISO_2022,locale=ja,version=3", "ISO_2022,locale=ja,version=4", "ISO_2022,locale=ko,version=0",
   "ISO_2022,locale=ko,version=1", "ISO_2022,locale=zh,version=0", "ISO_2022,locale=zh,version=1",
   "ISO_2022,locale=zh,version=2", "LMBCS-1", "SCSU", "UTF-7", "ibm-930_P120-1999", "ibm-933_P110-1995",
   "ibm-935_P110-1999", "ibm-937_P110-1999", "ibm-939_P120-1999", "ibm-1364_P110-2007", "ibm-1371_P100-1999",
   "ibm-1388_P103-2001", "ibm-1390_P110-2003", "ibm-1399_P110-2003", "ibm-16684_P110-2003", "x11-compound-text"].map name

/-- `idmap`, a `std::map`: its entries in the order of their names. -/
abbrev IdMap := List (Name × Nat)

/-- `idmap.insert`, src/enc/encodings.cpp:151: the entry of that name, if there is one; else the
map with a new entry. -/
def IdMap.insert (n : Name) (i : Nat) : IdMap → Except (Name × Nat) IdMap
  | [] => .ok [(n, i)]
  | x :: m =>
    if n < x.1 then .ok ((n, i) :: x :: m)
    else if x.1 = n then .error x
    else (IdMap.insert n i m).map (x :: ·)

/-- `idmap[aname] = i`, src/enc/encodings.cpp:172, for a name that is in the map. -/
def IdMap.assign (n : Name) (i : Nat) (m : IdMap) : IdMap := m.map fun x => if x.1 = n then (n, i) else x

/-- The loop over the standards, src/enc/encodings.cpp:157-175: whether the new entry replaces
the old one. -/
def replaces (icu : Icu) (old new : Name) : List Name → Bool
  | [] => false
  | s :: ss =>
    if (icu.standardName old s).isSome then false
    else if (icu.standardName new s).isSome then true
    else replaces icu old new ss

/-- The body of the loop over the aliases, src/enc/encodings.cpp:145-177.  `id` is
`canonical.size()-1`, `i` the number of the encoding among those available. -/
def addAlias (icu : Icu) (id i : Nat) (m : IdMap) (a : Name) : IdMap :=
  match m.insert a id with
  | .ok m' => m'
  | .error x => if replaces icu x.1 a standards then m.assign a i else m

/-- The loop over the encodings, src/enc/encodings.cpp:127-178; `i` counts them. -/
def collect (icu : Icu) : Nat → List Enc → List Name × IdMap → List Name × IdMap
  | _, [], s => s
  | i, e :: es, s =>
    if e.name ∈ skip then collect icu (i + 1) es s
    else
      let canonical := s.1 ++ [e.name]
      collect icu (i + 1) es (canonical, e.aliases.foldl (addAlias icu (canonical.length - 1) i) s.2)

/-- `LG_CANONICAL_ENCODINGS` and `LG_ENCODINGS` as the program writes them,
src/enc/encodings.cpp:121-178, 191-240.  There are no encodings to add (119, 180-189). -/
def tables (icu : Icu) : List Name × IdMap := collect icu 0 icu.available ([], [])

end Verif.EncTable
