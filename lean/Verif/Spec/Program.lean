import Verif.Spec.Stream
import Verif.Spec.Output

/-!
# Specification vocabulary: sequences of calls

A user of the reader or writer makes a sequence of calls; `?` stops at the first failing one.
-/

namespace Deku

/-- Calls on a reader. -/
inductive ReadOp
  /-- `read_bits(n, order)` -/
  | bits (n : Nat) (o : Order)
  /-- `read_bytes(n, &mut buf, order)` -/
  | bytes (n : Nat) (o : Order)
  /-- `end()` -/
  | atEnd
  deriving DecidableEq

/-- What a call returned. -/
inductive ReadOut
  | bits (l : List Bool)
  | bytes (bs : List Byte)
  | flag (b : Bool)
  deriving DecidableEq

/-- One call on a reader. -/
def ReadOp.call : ReadOp → M Reader ReadOut
  | .bits n o => do let l ← Reader.readBits n o; pure (.bits l)
  | .bytes n o => do let l ← Reader.readBytes n o; pure (.bytes l)
  | .atEnd => do let b ← Reader.end; pure (.flag b)

/-- The number of bits a call asks for. -/
def ReadOp.size : ReadOp → Nat
  | .bits n _ => n
  | .bytes n _ => 8 * n
  | .atEnd => 0

/-- A call other than `end()`. -/
def ReadOp.isRead : ReadOp → Bool
  | .atEnd => false
  | _ => true

/-- An answer of a call other than `end()`. -/
def ReadOut.isRead : ReadOut → Bool
  | .flag _ => false
  | _ => true

/-- A sequence of calls and all their answers. -/
def runReads : List ReadOp → M Reader (List ReadOut)
  | [] => pure []
  | op :: ops => do
    let x ← op.call
    let xs ← runReads ops
    pure (x :: xs)

/-- A sequence of bit reads of the given sizes in one order. -/
def readSizes (o : Order) : List Nat → M Reader (List (List Bool))
  | [] => pure []
  | n :: ns => do
    let l ← Reader.readBits n o
    let ls ← readSizes o ns
    pure (l :: ls)

/-- `l` cut into consecutive segments of the given lengths. -/
def segments : List Nat → List Bool → List (List Bool)
  | [], _ => []
  | n :: ns, l => l.take n :: segments ns (l.drop n)

/-- Calls on a writer. -/
inductive WriteOp
  /-- `write_bits_order(bits, order)` -/
  | bits (l : List Bool) (o : Order)
  /-- `write_bytes(bytes)` -/
  | bytes (bs : List Byte)
  /-- `write_bits_uint_msb0(value, amt)` -/
  | uint (v amt : Nat)

/-- One call on a writer. -/
def WriteOp.call : WriteOp → M Writer Unit
  | .bits l o => Writer.writeBitsOrder l o
  | .bytes bs => Writer.writeBytes bs
  | .uint v amt => Writer.writeBitsUintMsb0 v amt

/-- A call that users of the crate can make. -/
def WriteOp.Public : WriteOp → Prop
  | .uint _ _ => False
  | _ => True

/-- A sequence of calls. -/
def runWrites : List WriteOp → M Writer Unit
  | [] => pure ()
  | op :: ops => do
    op.call
    runWrites ops

end Deku
