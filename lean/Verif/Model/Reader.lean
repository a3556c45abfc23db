import Verif.Model.Stream

/-!
# `Reader` (src/reader.rs)
-/

namespace Deku

/-- `ctx::Order` (src/ctx.rs:19-27). -/
inductive Order
  | msb0
  | lsb0
  deriving DecidableEq, Repr

/-- `ctx::Endian` (src/ctx.rs:8-14). -/
inductive Endian
  | little
  | big
  deriving DecidableEq, Repr

/-- `Leftover` (src/reader.rs:28-34). The `BoundedBitVec<[u8; 1], Msb0>` is the list of its `len()`
bits; bits of the storage byte beyond `len()` are never observed. -/
inductive Leftover
  | byte (b : Byte)
  | bits (l : List Bool)
  deriving DecidableEq, Repr

/-- `Reader` (src/reader.rs:37-43). -/
structure Reader where
  inner : Src
  leftover : Option Leftover := none
  bitsRead : Nat := 0

namespace Reader

/-- `Reader::new` (src/reader.rs:72-78). -/
def new (s : Src) : Reader := { inner := s }

/-- One `self.inner.read_exact(&mut buf)` on a buffer of `n` bytes. -/
def ioRead (n : Nat) : M Reader (Except IoKind (List Byte)) := fun r =>
  let (x, s) := r.inner.readExact n
  (.ok x, { r with inner := s })

/-- `Seek for Reader` (src/reader.rs:45-60): the leftover is cleared before the inner seek, and
`bits_read` becomes eight times the new absolute position (its saturation is not modelled). -/
def seek (p : SeekFrom) : M Reader (Except IoKind Nat) := fun r =>
  match r.inner.seek p with
  | (.ok n, s) => (.ok (.ok n), { r with leftover := none, inner := s, bitsRead := n * 8 })
  | (.error e, s) => (.ok (.error e), { r with leftover := none, inner := s })

/-- The bits held in `leftover`, a `Byte` being converted to its eight bits
(src/reader.rs:248-259, 129-145). -/
def leftoverBits : Option Leftover → List Bool
  | none => []
  | some (.byte b) => byteBits b
  | some (.bits l) => l

/-- `Reader::rest` (src/reader.rs:129-145). -/
def rest (r : Reader) : List Bool := leftoverBits r.leftover

/-- `Reader::end` (src/reader.rs:152-173). An I/O error other than end-of-file is ignored and the
zero-initialised buffer is used. -/
def «end» : M Reader Bool := do
  let r ← M.get
  if r.leftover.isSome then
    pure false
  else
    match ← ioRead 1 with
    | .error .unexpectedEof => pure true
    | .error _ => M.modify (fun r => { r with leftover := some (.byte 0) }); pure false
    | .ok bs => M.modify (fun r => { r with leftover := some (.byte (bs.headD 0)) }); pure false

/-- The whole-byte loops of `read_bits_into` (src/reader.rs:309-318 and 322-331): `k` bytes are read
one at a time; end-of-file is reported as `Incomplete(dst.len())`, any other I/O error is ignored
and leaves the zero-initialised buffer. -/
def readSlots (dstLen : Nat) : Nat → M Reader (List Byte)
  | 0 => pure []
  | k + 1 => do
    let b ← (do
      match ← ioRead 1 with
      | .error .unexpectedEof => M.throw (.incomplete dstLen)
      | .error _ => pure (0 : Byte)
      | .ok bs => pure (bs.headD 0))
    let bs ← readSlots dstLen k
    pure (b :: bs)

/-- The single read for a partial byte (src/reader.rs:336-343 and 354-362): here I/O errors are
reported. -/
def readPartial (dstLen : Nat) : M Reader Byte := do
  match ← ioRead 1 with
  | .error .unexpectedEof => M.throw (.incomplete dstLen)
  | .error e => M.throw (.io e)
  | .ok bs => pure (bs.headD 0)

/-- `Reader::read_bits_into` (src/reader.rs:236-377) on a destination of `n` bits; the result is the
contents of the destination. -/
def readBitsInto (n : Nat) (order : Order) : M Reader (List Bool) := do
  if n = 0 then
    pure []
  else
    let r ← M.get
    let lo := leftoverBits r.leftover
    M.modify (fun r => { r with leftover := none })
    let prev := lo.length
    let dst ←
      if n < prev then
        match order with
        | .lsb0 => do
          M.modify (fun r => { r with leftover := some (.bits (lo.take (prev - n))) })
          pure (lo.drop (prev - n))
        | .msb0 => do
          M.modify (fun r => { r with leftover := some (.bits (lo.drop n)) })
          pure (lo.take n)
      else if n = prev then
        pure lo
      else
        let need := n - prev
        match order with
        | .lsb0 => do
          let bytes ← readSlots n (need / 8)
          let slots := bytesBits bytes.reverse
          if need % 8 = 0 then
            pure (slots ++ lo)
          else
            let b ← readPartial n
            M.modify (fun r =>
              { r with leftover := some (.bits ((byteBits b).take (8 - need % 8))) })
            pure ((byteBits b).drop (8 - need % 8) ++ slots ++ lo)
        | .msb0 => do
          let bytes ← readSlots n (need / 8)
          let slots := bytesBits bytes
          if need % 8 = 0 then
            pure (lo ++ slots)
          else
            let b ← readPartial n
            M.modify (fun r =>
              { r with leftover := some (.bits ((byteBits b).drop (need % 8))) })
            pure (lo ++ slots ++ (byteBits b).take (need % 8))
    M.modify (fun r => { r with bitsRead := r.bitsRead + n })
    pure dst

/-- `Reader::read_bits` (src/reader.rs:457-465). -/
def readBits (n : Nat) (order : Order) : M Reader (List Bool) := readBitsInto n order

/-- The loop `while have < amt` of `read_bits_uint_msb0` (src/reader.rs:419-429); `fuel` bounds the
number of iterations, eight bits are gained per iteration so `amt` is always enough. -/
def uintLoop (amt : Nat) : Nat → Nat → Nat → M Reader (Nat × Nat)
  | 0, acc, have_ => pure (acc, have_)
  | fuel + 1, acc, have_ =>
    if have_ < amt then do
      match ← ioRead 1 with
      | .error .unexpectedEof => M.throw (.incomplete amt)
      | .error e => M.throw (.io e)
      | .ok bs => uintLoop amt fuel (acc * 256 + (bs.headD 0).toNat) (have_ + 8)
    else pure (acc, have_)

/-- `Reader::read_bits_uint_msb0` (src/reader.rs:393-443). `acc` is a natural number instead of a
`u128`: at most 71 bits are ever accumulated. -/
def readBitsUintMsb0 (amt : Nat) : M Reader Nat := do
  M.assert (decide (1 ≤ amt) && decide (amt ≤ 64))
  let r ← M.get
  let (acc0, have0) := (ofBits (leftoverBits r.leftover), (leftoverBits r.leftover).length)
  M.modify (fun r => { r with leftover := none })
  let (acc, have_) ← uintLoop amt amt acc0 have0
  let rest := have_ - amt
  let value := (acc / 2 ^ rest) % 2 ^ amt
  if rest ≠ 0 then
    M.modify (fun r => { r with leftover := some (.bits (bitsBE rest acc)) })
  M.modify (fun r => { r with bitsRead := r.bitsRead + amt })
  pure value

/-- Groups of eight bits as bytes: the buffer a `BitSlice::from_slice_mut(buf)` is a view of. -/
def packBytes (n : Nat) (l : List Bool) : List Byte := (chunks8 n l).map byteOf

/-- `read_bytes_leftover` and `read_bytes_const_leftover` (src/reader.rs:526-565, 665-706): `amt`
bytes, the first being the peeked one. With `amt = 0` the write to `buf[0]` panics. -/
def readBytesLeftover (byte : Byte) (amt : Nat) : M Reader (List Byte) := do
  if amt = 0 then
    M.panic
  else
    M.modify (fun r => { r with leftover := none })
    let remaining := amt - 1
    if remaining = 0 then
      M.modify (fun r => { r with bitsRead := r.bitsRead + amt * 8 })
      pure [byte]
    else
      match ← ioRead remaining with
      | .error .unexpectedEof => M.throw (.incomplete (remaining * 8))
      | .error e => M.throw (.io e)
      | .ok bs =>
        M.modify (fun r => { r with bitsRead := r.bitsRead + amt * 8 })
        pure (byte :: bs)

/-- `read_bytes` / `read_bytes_other` (src/reader.rs:475-524) with a buffer of `amt` bytes. -/
def readBytes (amt : Nat) (order : Order) : M Reader (List Byte) := do
  let r ← M.get
  match r.leftover with
  | none =>
    match ← ioRead amt with
    | .error .unexpectedEof => M.throw (.incomplete (amt * 8))
    | .error e => M.throw (.io e)
    | .ok bs =>
      M.modify (fun r => { r with bitsRead := r.bitsRead + amt * 8 })
      pure bs
  | some (.byte b) => readBytesLeftover b amt
  | some (.bits _) => do
    let bits ← readBitsInto (amt * 8) order
    let buf := packBytes amt bits
    match order with
    | .lsb0 => pure buf.reverse
    | .msb0 => pure buf

/-- `read_bytes_const` / `read_bytes_const_other` (src/reader.rs:574-623): the same steps with the
length of the array in place of `amt`. -/
def readBytesConst (N : Nat) (order : Order) : M Reader (List Byte) := do
  let r ← M.get
  match r.leftover with
  | none =>
    match ← ioRead N with
    | .error .unexpectedEof => M.throw (.incomplete (N * 8))
    | .error e => M.throw (.io e)
    | .ok bs =>
      M.modify (fun r => { r with bitsRead := r.bitsRead + N * 8 })
      pure bs
  | some (.byte b) => readBytesLeftover b N
  | some (.bits _) => do
    let bits ← readBitsInto (N * 8) order
    let buf := packBytes N bits
    match order with
    | .lsb0 => pure buf.reverse
    | .msb0 => pure buf

/-- `read_bytes_const_into` (src/reader.rs:633-663). -/
def readBytesConstInto (N : Nat) (order : Order) : M Reader (List Byte) := do
  let r ← M.get
  match r.leftover with
  | none =>
    match ← ioRead N with
    | .error .unexpectedEof => M.throw (.incomplete (N * 8))
    | .error e => M.throw (.io e)
    | .ok bs =>
      M.modify (fun r => { r with bitsRead := r.bitsRead + N * 8 })
      pure bs
  | some (.byte b) => readBytesLeftover b N
  | some (.bits _) => do
    let bits ← readBitsInto (N * 8) order
    let buf := packBytes N bits
    match order with
    | .lsb0 => pure buf.reverse
    | .msb0 => pure buf

/-- `skip_bits` (src/reader.rs:181-219): drain `Leftover::Bits`, seek over whole bytes, read the
rest. A `Leftover::Byte` is not drained before the seek. -/
def skipBits (amt : Nat) (order : Order) : M Reader Unit := do
  let r ← M.get
  let amt ← match r.leftover with
    | some (.bits l) => do
      let needed := min amt l.length
      let _ ← readBitsInto needed order
      pure (amt - needed)
    | _ => pure amt
  let bytesAmt := amt / 8
  let bitsAmt := amt % 8
  if bytesAmt ≠ 0 then
    let r ← M.get
    M.assert (decide (r.bitsRead % 8 = 0))
    match ← seek (.current bytesAmt) with
    | .error e => M.throw (.io e)
    | .ok _ => pure ()
  let _ ← readBitsInto bitsAmt order
  pure ()

end Reader

end Deku
