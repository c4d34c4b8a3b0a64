import Verif.Model.FileOutput
import Verif.Spec.Utf8

/-! # Files, interruption, and what a run should write -/

namespace Toon

/-- The contents of the files. -/
abbrev Files := Str → Option (List UInt8)

/-- The files after one operation. -/
def FileOp.apply (files : Files) : FileOp → Files
  | .create path => fun q => if q = path then some [] else files q
  | .append path bs => fun q => if q = path then (files q).map (· ++ bs) else files q

/-- The files after all operations. -/
def filesAfter (files : Files) (ops : List FileOp) : Files := ops.foldl FileOp.apply files

/-- The files when the process is interrupted (killed, power lost) at some point: the operations are carried out
in order, the last one perhaps only in part. -/
inductive CrashState : Files → List FileOp → Files → Prop where
  | stop (files : Files) (ops : List FileOp) : CrashState files ops files
  | step (op : FileOp) (ops : List FileOp) (files after : Files) (h : CrashState (op.apply files) ops after) :
      CrashState files (op :: ops) after
  | torn (path : Str) (bs : List UInt8) (k : Nat) (ops : List FileOp) (files : Files) :
      CrashState files (.append path bs :: ops) ((FileOp.append path (bs.take k)).apply files)

/-- The bytes of the input: the named file, or standard input without a name or for `-`. -/
def inputBytes (args : Args) (world : World) : Option (List UInt8) :=
  match args.input with
  | none => world.stdin
  | some path => if path = "-".toList then world.stdin else world.files path

/-- `text` is what the run should write: the input is the text `s`, and its conversion is `text`. -/
def Converts {F : Type} [F64 F] [JsonNum F] (rd : Str → Option F) (args : Args) (world : World) (text : Str) : Prop :=
  ∃ s, inputBytes args world = some (utf8Bytes s) ∧ runCli rd args s = .ok text

/-- No operation on the output fails. -/
def World.Healthy (world : World) : Prop := ∀ f ∈ world.fates, f = none

end Toon
