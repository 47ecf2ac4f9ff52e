import Verif.Model.Process
import Verif.Spec.Json

/-!
# What a run of the process reads and what may be seen on the disk
-/

namespace Groot.Spec

open Process

/-- The text of a file; a file that is not there has none. -/
def textOf (env : Env) (name : Str) : Str := (env.disk name).getD []

/-- The value in metadata.json. -/
def MetadataRead (env : Env) (m : JVal) : Prop := env.json (textOf env (env.path "metadata.json".toList)) = some m

/-- The value in the job file, if one is given: without the option, or with an empty name, there is none. -/
inductive JobsRead (env : Env) (args : Args) : Option JVal → Prop where
  | default (h : args.jobs = none ∨ args.jobs = some []) : JobsRead env args none
  | file (f : Str) (v : JVal) (h : args.jobs = some f) (hf : f ≠ []) (hv : env.json (textOf env f) = some v) : JobsRead env args (some v)

/-- The name of the output file: the one given, or else "output.json". -/
inductive OutputFile (args : Args) : Str → Prop where
  | given (f : Str) (h : args.output = some f) : OutputFile args f
  | default (h : args.output = none) : OutputFile args "output.json".toList

/-- The files a run gets to write, if it gets there. -/
def Wrote (fuel thr : Nat) (env : Env) (args : Args) (f : Driver.Files) : Prop :=
  ∃ m us, MetadataRead env m ∧ JobsRead env args us ∧
    Driver.programJ env.ord fuel thr args.lint (fun n => textOf env (env.path n)) (fun n => (env.disk (env.path n)).isSome) m us = .ok f

/-- A disk that may be seen during or after the writes, or if the process is killed between two of them or during one. -/
inductive Seen (d : Disk) (ws : List Write) : Disk → Prop where
  | between (k : Nat) : Seen d ws (d.after (ws.take k))
  | within (k : Nat) (f s p : Str) (h : ws[k]? = some (.append f s)) (hp : p <+: s) : Seen d ws ((d.after (ws.take k)).write (.append f p))

/-- The text is JSON. -/
def IsJson (s : Str) : Prop := ∃ j, JsonText.parse s = some j

end Groot.Spec
