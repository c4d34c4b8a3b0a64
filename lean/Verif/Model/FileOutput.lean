import Verif.Model.Cli
import Verif.Model.Utf8

/-!
# Reading and writing files: `/repo/src/cli/mod.rs`, `/repo/src/main.rs`

The command line tool with its input and output operations.  The operating system is given by a `World`: the
contents of the files, what standard input delivers, whether a file can be created, and for each operation that
hands bytes to the system whether it succeeds or how many bytes are accepted before it fails.  The buffering
writers of the Rust standard library (`std::io::BufWriter`, `std::io::LineWriter`) are modelled, since what is
lost when an operation fails depends on them.

Not modelled: messages on standard error, two paths for the same file, a closed standard output (which the
standard library treats as if every write succeeded).
-/

namespace Toon

/-! ## Writers of the standard library -/

/-- A destination of bytes: the fates of the operations to come (`none`: all bytes are accepted, `some k`: the
operation fails after `k` bytes; when the list is exhausted all operations succeed), and the portions accepted
so far. -/
structure Device where
  fates : List (Option Nat)
  sent : List (List UInt8)
deriving DecidableEq, Repr

/-- `Write::write_all` (Rust std) of an unbuffered writer; the second part is the bytes not accepted if the
operation fails.  Writing nothing is no operation. -/
def Device.writeAll (dev : Device) (bs : List UInt8) : Device × Option (List UInt8) :=
  if bs.isEmpty then (dev, none)
  else
    match dev.fates with
    | [] => ({ fates := [], sent := dev.sent ++ [bs] }, none)
    | none :: fates => ({ fates := fates, sent := dev.sent ++ [bs] }, none)
    | some k :: fates => ({ fates := fates, sent := dev.sent ++ [bs.take k] }, some (bs.drop k))

/-- `BufWriter` (Rust std): a buffer of a fixed capacity before a device. -/
structure Buffered where
  capacity : Nat
  buf : List UInt8
  dev : Device
deriving DecidableEq, Repr

/-- `BufWriter::flush_buf` (Rust std): what was not accepted stays in the buffer.  The Boolean is success. -/
def Buffered.flushBuf (w : Buffered) : Buffered × Bool :=
  match w.dev.writeAll w.buf with
  | (dev, none) => ({ w with buf := [], dev := dev }, true)
  | (dev, some rest) => ({ w with buf := rest, dev := dev }, false)

/-- `BufWriter::write_all_cold` (Rust std), after the buffer has been flushed or found to have room. -/
def Buffered.writeLarge (w : Buffered) (bs : List UInt8) : Buffered × Bool :=
  if bs.length ≥ w.capacity then
    match w.dev.writeAll bs with
    | (dev, none) => ({ w with dev := dev }, true)
    | (dev, some _) => ({ w with dev := dev }, false)
  else ({ w with buf := w.buf ++ bs }, true)

/-- `BufWriter::write_all` and `write_all_cold` (Rust std). -/
def Buffered.writeAll (w : Buffered) (bs : List UInt8) : Buffered × Bool :=
  if bs.length < w.capacity - w.buf.length then ({ w with buf := w.buf ++ bs }, true)
  else if bs.length > w.capacity - w.buf.length then
    match w.flushBuf with
    | (w, true) => w.writeLarge bs
    | (w, false) => (w, false)
  else w.writeLarge bs

/-- `Drop for BufWriter` (Rust std): the buffer is flushed and the result ignored. -/
def Buffered.drop (w : Buffered) : Device := w.flushBuf.1.dev

/-- `memrchr(b'\n', buf)` and `split_at`: the part up to the last newline, and the part after it; `none`
without a newline. -/
def lastLine (bs : List UInt8) : Option (List UInt8 × List UInt8) :=
  let tail := (bs.reverse.takeWhile (· != 0x0A)).reverse
  if tail.length = bs.length then none else some (bs.take (bs.length - tail.length), tail)

/-- `LineWriterShim::write_all` (Rust std), `flush_if_completed_line` included. -/
def Buffered.writeAllLines (w : Buffered) (bs : List UInt8) : Buffered × Bool :=
  match lastLine bs with
  | none =>
    if w.buf.getLast? = some 0x0A then
      match w.flushBuf with
      | (w, true) => w.writeAll bs
      | (w, false) => (w, false)
    else w.writeAll bs
  | some (lines, tail) =>
    if w.buf.isEmpty then
      match w.dev.writeAll lines with
      | (dev, none) => { w with dev := dev }.writeAll tail
      | (dev, some _) => ({ w with dev := dev }, false)
    else
      match w.writeAll lines with
      | (w, false) => (w, false)
      | (w, true) =>
        match w.flushBuf with
        | (w, true) => w.writeAll tail
        | (w, false) => (w, false)

/-! ## `mod.rs` -/

/-- The `write_all` calls of `/repo/src/cli/mod.rs:156-191` `write_lines` (`i` is the index of the first
line). -/
def linePieces (i : Nat) : List Str → List Str
  | [] => [['\n']]
  | line :: rest => (if i > 0 then [['\n']] else []) ++ line :: linePieces (i + 1) rest

/-- The `write_all` calls of `/repo/src/cli/mod.rs:139-154` `write_output`. -/
def outputPieces (data : Str) : List Str := [data, ['\n']]

/-- The `write_all` calls of `/repo/src/cli/mod.rs:193-220` `write_chunks`. -/
def chunkPieces (chunks : List Str) : List Str := chunks ++ [['\n']]

/-- A sequence of `write_all(..)?` on a `File`, `/repo/src/cli/mod.rs:141-146`. -/
def writeFile : Device → List Str → Device × Bool
  | dev, [] => (dev, true)
  | dev, piece :: pieces =>
    match dev.writeAll (Utf8.bytes piece) with
    | (dev, none) => writeFile dev pieces
    | (dev, some _) => (dev, false)

/-- A sequence of `write_all(..)?` on a `BufWriter` (`/repo/src/cli/mod.rs:161-176`, `198-208`), which is
dropped at the end or when an operation fails. -/
def writeBuffered : Buffered → List Str → Device × Bool
  | w, [] => (w.drop, true)
  | w, piece :: pieces =>
    match w.writeAll (Utf8.bytes piece) with
    | (w, true) => writeBuffered w pieces
    | (w, false) => (w.drop, false)

/-- A sequence of `write_all(..)?` on standard output (`/repo/src/cli/mod.rs:148-151`, `178-189`, `210-217`),
whose buffer is flushed, and the result ignored, when the process ends (`std::rt::cleanup`). -/
def writeStdout : Buffered → List Str → Device × Bool
  | w, [] => (w.drop, true)
  | w, piece :: pieces =>
    match w.writeAllLines (Utf8.bytes piece) with
    | (w, true) => writeStdout w pieces
    | (w, false) => (w.drop, false)

/-- `std::io::DEFAULT_BUF_SIZE` (Rust std), the capacity of `BufWriter::new`. -/
def fileBuffer : Nat := 8192

/-- The capacity of the buffer of standard output, `LineWriter::new` (Rust std). -/
def stdoutBuffer : Nat := 1024

/-- An operation on a file. -/
inductive FileOp where
  /-- create it, or make it empty -/
  | create (path : Str)
  | append (path : Str) (bs : List UInt8)
deriving DecidableEq, Repr

/-- The surroundings of one run. -/
structure World where
  /-- the contents of the files that can be read -/
  files : Str → Option (List UInt8)
  /-- what standard input delivers; `none` when it cannot be read -/
  stdin : Option (List UInt8)
  /-- whether `File::create` succeeds -/
  canCreate : Str → Bool
  /-- the fates of the writing operations -/
  fates : List (Option Nat)

/-- Why a run fails. -/
inductive CliErr where
  | read
  | convert (e : Err)
  | create
  | write
deriving DecidableEq, Repr

/-- What a run does: success or failure (the exit status, `/repo/src/main.rs:1-7`), the operations on files, and
the portions that arrive at standard output. -/
structure Effect where
  result : Except CliErr Unit
  ops : List FileOp
  stdout : List (List UInt8)

/-- `read_to_string` (Rust std): `none` if the bytes are not UTF-8. -/
def fromUtf8 (bs : List UInt8) : Option Str := bs.toByteArray.utf8Decode?.map Array.toList

/-- `/repo/src/cli/mod.rs:115-137` `read_input`, `read_stdin`, `read_file`. -/
def readInput (args : Args) (world : World) : Option Str :=
  if args.isStdin then world.stdin.bind fromUtf8
  else (args.input.bind world.files).bind fromUtf8

/-- How `/repo/src/cli/mod.rs:139-220` write: unbuffered with `--stats`, otherwise through a `BufWriter`, when
there is an output file; through the buffer of standard output when there is none. -/
def write (args : Args) (world : World) (plain : Bool) (pieces : List Str) : Effect :=
  match args.output with
  | some path =>
    if world.canCreate path then
      let written := if plain then writeFile ⟨world.fates, []⟩ pieces
        else writeBuffered ⟨fileBuffer, [], ⟨world.fates, []⟩⟩ pieces
      { result := if written.2 then .ok () else .error .write
        ops := .create path :: written.1.sent.map (.append path)
        stdout := [] }
    else { result := .error .create, ops := [], stdout := [] }
  | none =>
    let written := writeStdout ⟨stdoutBuffer, [], ⟨world.fates, []⟩⟩ pieces
    { result := if written.2 then .ok () else .error .write, ops := [], stdout := written.1.sent }

section
variable {F : Type} [F64 F] [JsonNum F]

/-- `/repo/src/cli/mod.rs:29-83` `run_encode` up to the writing: whether the writing is unbuffered, and the
pieces written. -/
def encodePieces (rd : Str → Option F) (args : Args) (input : Str) : Except Err (Bool × List Str) :=
  let options : EncodeOptions :=
    { indent := some args.indent, delimiter := some args.delimiter, keyFolding := some args.keyFolding,
      flattenDepth := args.flattenDepth }
  match encodeToToonLines rd input (some options) with
  | .error e => .error e
  | .ok lines => .ok (if args.stats then (true, outputPieces (joinWith '\n' lines)) else (false, linePieces 0 lines))

/-- `/repo/src/cli/mod.rs:85-113` `run_decode` up to the writing. -/
def decodePieces (F : Type) [F64 F] [JsonNum F] (args : Args) (input : Str) : Except Err (Bool × List Str) :=
  let options : DecodeOptions :=
    { indent := some args.indent, strict := some (!args.noStrict), expandPaths := some args.expandPaths }
  match decodeToJsonChunks F input (some options) with
  | .error e => .error e
  | .ok chunks => .ok (false, chunkPieces chunks)

/-- `/repo/src/cli/mod.rs:19-27` `run`, with its effects: the input is read completely and converted before the
output file is created. -/
def runTool (rd : Str → Option F) (args : Args) (world : World) : Effect :=
  match readInput args world with
  | none => { result := .error .read, ops := [], stdout := [] }
  | some input =>
    match (match args.detectMode with
      | .encode => encodePieces rd args input
      | .decode => decodePieces F args input) with
    | .error e => { result := .error (.convert e), ops := [], stdout := [] }
    | .ok (plain, pieces) => write args world plain pieces

end

end Toon
