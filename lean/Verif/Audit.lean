import Lean.Elab.Command
import Lean.Util.CollectAxioms
import Verif.Props.Append
import Verif.Props.Arith
import Verif.Props.Attributes
import Verif.Props.Bounded
import Verif.Props.Calls
import Verif.Props.Candid
import Verif.Props.Canon
import Verif.Props.Chain
import Verif.Props.Conform
import Verif.Props.Consistent
import Verif.Props.Core
import Verif.Props.CoreEnum
import Verif.Props.CoreRead
import Verif.Props.CoreStream
import Verif.Props.DekuId
import Verif.Props.Derive
import Verif.Props.Discriminant
import Verif.Props.Emit
import Verif.Props.Envelope
import Verif.Props.Errors
import Verif.Props.ExampleEnum
import Verif.Props.ExampleFrame
import Verif.Props.ExampleMain
import Verif.Props.Examples
import Verif.Props.Faithful
import Verif.Props.Faults
import Verif.Props.Grow
import Verif.Props.Hash
import Verif.Props.Int
import Verif.Props.IntExact
import Verif.Props.Io
import Verif.Props.IoOut
import Verif.Props.Jumps
import Verif.Props.Lengths
import Verif.Props.Map
import Verif.Props.Maps
import Verif.Props.Mixed
import Verif.Props.MixedInt
import Verif.Props.MixedRead
import Verif.Props.Names
import Verif.Props.NoBits
import Verif.Props.NoSeek
import Verif.Props.Offset
import Verif.Props.Parse
import Verif.Props.Patch
import Verif.Props.Play
import Verif.Props.Portable
import Verif.Props.Position
import Verif.Props.Quiet
import Verif.Props.ReadAll
import Verif.Props.Reader
import Verif.Props.Receive
import Verif.Props.Recursive
import Verif.Props.Regroup
import Verif.Props.Release
import Verif.Props.ReleaseMaps
import Verif.Props.Safe
import Verif.Props.Seek
import Verif.Props.Shared
import Verif.Props.SharedBody
import Verif.Props.SharedInt
import Verif.Props.SharedList
import Verif.Props.SharedStruct
import Verif.Props.Size
import Verif.Props.Sized
import Verif.Props.SizedSigned
import Verif.Props.Skip
import Verif.Props.Source
import Verif.Props.Text
import Verif.Props.Truncate
import Verif.Props.Tuple
import Verif.Props.Unsafe
import Verif.Props.Update
import Verif.Props.VariantFns
import Verif.Props.Vec
import Verif.Props.Weight
import Verif.Props.Wire
import Verif.Props.Wrappers
import Verif.Props.Writer

/-!
# The axioms behind the property theorems

The build fails if a theorem `Deku.Cnn_…` depends on anything but the three axioms of Lean's standard
library. `#print axioms Deku.Cnn_…` shows the list for one theorem.
-/

open Lean Elab Command

/-- The theorems about property `Cnn`, by their names. -/
def isProperty (n : Name) : Bool :=
  match n with
  | .str (.str .anonymous "Deku") s =>
    s.length > 4 && s.startsWith "C" && ((s.drop 1).take 2).all Char.isDigit && (s.drop 3).startsWith "_"
  | _ => false

run_cmd do
  let env ← getEnv
  let names := env.constants.fold (init := #[]) fun l n c =>
    match c with
    | .thmInfo _ => if isProperty n then l.push n else l
    | _ => l
  if names.size < 200 then throwError "only {names.size} property theorems found"
  for n in names do
    for a in ← liftCoreM (collectAxioms n) do
      unless a == ``propext || a == ``Classical.choice || a == ``Quot.sound do
        throwError "{n} depends on {a}"
