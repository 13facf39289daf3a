import Verif.ContainerSort
import Verif.Props.Sorters

/-!
# The main programs

Model of the main functions of `compress.cpp` and `uncompress.cpp` behind the parsing of the command line by boost: checks of the options,
defaults, and what the compressor is called with.
-/

set_option autoImplicit false

namespace Bwtc.Main
open Container

/-- The options given on the command line of the compressor (compress.cpp:106-144); `none`: not given.  `mem` is a `uint64`, `starts` a `uint32`: other numbers
are rejected by the parser, which is not modelled.  The options `stdin`, `stdout`, `verb` and the names of the files are left out. -/
structure Args where
  help : Bool
  mem : Option Nat
  starts : Option Nat
  bwt : Option UInt8
  prepr : Option (List UInt8)
  enc : Option UInt8

/-- `validatePreprocOption` (compress.cpp:45-57): every character is `p`. -/
def validPrepr : List UInt8 → Bool
  | [] => true
  | c :: p => if c ≠ 112 then false else validPrepr p

/-- `validateStartingPoints` (compress.cpp:60-70). -/
def validStarts (n : Nat) : Bool := decide (0 < n ∧ n ≤ 256)

/-- `validateEncodingOption` (compress.cpp:73-84): `H`, `m`, `M`, `u`, `b`, `B`. -/
def validEnc (c : UInt8) : Bool := c == 72 || c == 109 || c == 77 || c == 117 || c == 98 || c == 66

/-- `validateBWTchoice` (compress.cpp:87-96) with `BWTManager::isValidChoice` (BWTManager.cpp:70-72): `d`, `s`, `a`. -/
def validBwt (c : UInt8) : Bool := c == 100 || c == 115 || c == 97

/-- What the program does: ends with an error message and status 1, prints the help, or compresses (`none`: undefined behaviour; otherwise the
file and the size printed). -/
inductive Outcome where
  | error
  | help
  | ran (r : Option (List UInt8 × Nat))

/-- `main` (compress.cpp:99-206): the notifiers run for given and default values before the help is printed; then `mem <= 0` is made 1, and the
compressor is called with `mem*1000000`. -/
def compressMain (cells : List UInt8 → Nat → Nat → List Int) (a : Args) (e : Env) (fuel : Nat) (input : List UInt8) : Outcome :=
  let mem := a.mem.getD 100
  let starts := a.starts.getD 8
  let bwt := a.bwt.getD 97
  let prepr := a.prepr.getD []
  let enc := a.enc.getD 66
  if !(validStarts starts && validBwt bwt && validPrepr prepr && validEnc enc) then .error
  else if a.help then .help
  else .ran (compressWith bwt cells ⟨enc, starts, prepr.length, memLimitOf mem⟩ e fuel input)

/-- `main` (uncompress.cpp:47-103) without `help`: what is written. -/
def uncompressMain (junk : UInt8) (fuel : Nat) (file : List UInt8) : Option (List UInt8) := decompress junk fuel file

end Bwtc.Main
