import Verif.Container

/-!
# The files the programs open

Model of what the constructors of `Compressor`, `Decompressor` and of the streams do with the files named on the command line.  Names that denote the
same file (links, relative paths) are the same name here; the empty names of `stdin` and `stdout` are left out.
-/

set_option autoImplicit false

namespace Bwtc.Files
open Container

/-- Names of files. -/
abbrev Name := List UInt8

/-- The files on the disk. -/
abbrev Fs := Name → Option (List UInt8)

/-- The file system with the content of one file replaced. -/
def Fs.put (fs : Fs) (name : Name) (data : List UInt8) : Fs := fun n => if n = name then some data else fs n

/-- How a program ends: with status 1 since a file could not be opened (Streams.cpp:51-54, 138-141), or normally; with the files it leaves. -/
inductive End where
  | failed (fs : Fs)
  | done (fs : Fs)

/-- `RawInStream::RawInStream` (Streams.cpp:128-148): `fopen(name, "r")` fails if there is no such file. -/
def openIn (fs : Fs) (name : Name) : Bool := (fs name).isSome

/-- `RawOutStream::RawOutStream` (Streams.cpp:43-61): `fopen(name, "w")` creates the file or cuts it to length 0; `may` says whether it succeeds. -/
def openOut (may : Name → Bool) (fs : Fs) (name : Name) : Option Fs := if may name then some (fs.put name []) else none

/-- A program that opens its input, then its output (the order of the members, Compressor.hpp:111-112, Decompressor.hpp:57-58; Compressor.cpp:37-42,
Decompressor.cpp:38-40), and writes what `f` makes of the content.  The content is what the file holds when both are open: nothing is read before, and if both are the same
file nothing of the output is stored before the first `fread` (the byte of `writeGlobalHeader` is in the buffer), which finds the end.  `none`: undefined behaviour. -/
def program (may : Name → Bool) (f : List UInt8 → Option (List UInt8)) (fs : Fs) (input output : Name) : Option End :=
  if openIn fs input then
    match openOut may fs output with
    | none => some (.failed fs)
    | some fs => do
      let data ← fs input
      let file ← f data
      return .done (fs.put output file)
  else some (.failed fs)

/-- `main` of the compressor from the call of the constructor on (compress.cpp:191-194). -/
def compressFile (may : Name → Bool) (o : Options) (e : Env) (fuel : Nat) (fs : Fs) (input output : Name) : Option End :=
  program may (fun data => (compress o e fuel data).map (·.1)) fs input output

/-- `main` of the decompressor from the call of the constructor on (uncompress.cpp:98-99). -/
def uncompressFile (may : Name → Bool) (junk : UInt8) (fuel : Nat) (fs : Fs) (input output : Name) : Option End :=
  program may (decompress junk fuel) fs input output

/-- `preprocess` of the preprocessing tool (preprocess.cpp:57-97), whose streams are opened in the same order (preprocess.cpp:68-72). -/
def preprocessFile (may : Name → Bool) (o : Options) (e : Env) (blockSize : Nat) (fs : Fs) (input output : Name) : Option End :=
  program may (preprocessTool o e blockSize) fs input output

/-- `postprocess` of the postprocessing tool (postprocess.cpp:67-103), whose streams are opened in the same order (postprocess.cpp:77-79). -/
def postprocessFile (may : Name → Bool) (fs : Fs) (input output : Name) : Option End :=
  program may postprocessTool fs input output

end Bwtc.Files
