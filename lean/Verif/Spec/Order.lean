import Verif.Spec.Threaded
import Verif.Spec.StructuralRun

/-!
# Specification: the order in which the zone files are listed
-/

namespace Groot.Spec

open Driver

/-- Two zone files of one server for the same origin hold the same records. -/
def OneZoneEach (zs : List Listing) (ess : List (List (Entry × Nat))) : Prop :=
  ∀ a ∈ zs.zip ess, ∀ b ∈ zs.zip ess, toLower a.1.2.1 = toLower b.1.2.1 → soaOwner (a.1.records a.2) = soaOwner (b.1.records b.2) →
    a.1.records a.2 = b.1.records b.2

/-- The report of a disagreement about a delegation, of the name `n`. -/
def TellsOf (n : Name) (ord : List Str → List Str) (j : Json) : Prop := ∃ ps, (leaves j).Perm (entries ord (.structural (present n) ps))

/-- A text the program, run in turn or with its threads in whatever order, leaves in the output file. -/
def Leaves (ord : List Str → List Str) (fuel thr : Nat) (lint : Bool) (read : Str → Str) (exists_ : Str → Bool) (jm jj : JVal) (text : Str) : Prop :=
  (∃ whole, Threaded ord fuel thr lint read exists_ jm jj text whole) ∨
    ∃ f, programJ ord fuel thr lint read exists_ jm (some jj) = .ok f ∧ text = f.output

end Groot.Spec
