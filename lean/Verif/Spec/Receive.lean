import Verif.Model.Toplevel

/-!
# A program that receives messages

The bytes arrive in pieces, of which nothing is known. The program collects them in a buffer and takes messages from it
as long as there are any:

```
buf.extend(piece);
loop {
    match T::from_bytes((&buf, off)) {
        Ok((rest, v)) => { deliver(v); (buf, off) = next(rest); }
        Err(DekuError::Incomplete(_)) => break,
        Err(e) => return Err(e),
    }
}
```
-/

namespace Deku

variable {α : Type}

/-- What comes of it when no more messages can be taken from the buffer. -/
inductive Status
  /-- The program waits for more, with these bytes in its buffer, of which so many bits are used already. -/
  | waiting (buf : List Byte) (off : Nat)
  | failed (e : DekuError)
  | panicked
  deriving DecidableEq

/-- The next message starts right behind the last one. -/
def packed (x : List Byte × Nat) : List Byte × Nat := x

/-- The next message starts at the next byte. This is so if each message is written by `to_bytes`. -/
def atNextByte (x : List Byte × Nat) : List Byte × Nat := if x.2 = 0 then x else (x.1.drop 1, 0)

/-- The loop: from the buffer `x` these values are delivered, with this outcome. If the loop does not end there is no
outcome. -/
inductive Drains (parse : List Byte → Nat → Res ((List Byte × Nat) × α)) (next : List Byte × Nat → List Byte × Nat) :
    List Byte × Nat → List α → Status → Prop
  | message {x y : List Byte × Nat} {v : α} {vs : List α} {s : Status} (h : parse x.1 x.2 = .ok (y, v))
    (t : Drains parse next (next y) vs s) : Drains parse next x (v :: vs) s
  | wait {x : List Byte × Nat} {n : Nat} (h : parse x.1 x.2 = .err (.incomplete n)) :
    Drains parse next x [] (.waiting x.1 x.2)
  | fail {x : List Byte × Nat} {e : DekuError} (h : parse x.1 x.2 = .err e) (he : ∀ n, e ≠ .incomplete n) :
    Drains parse next x [] (.failed e)
  | panic {x : List Byte × Nat} (h : parse x.1 x.2 = .panic) : Drains parse next x [] .panicked

/-- The program: the pieces arrive one after the other; `vss` are the values delivered after each of them. Once it has
failed, further pieces are not looked at. -/
inductive Gets (parse : List Byte → Nat → Res ((List Byte × Nat) × α)) (next : List Byte × Nat → List Byte × Nat) :
    List Byte × Nat → List (List Byte) → List (List α) → Status → Prop
  | nil {x : List Byte × Nat} : Gets parse next x [] [] (.waiting x.1 x.2)
  | piece {x y : List Byte × Nat} {c : List Byte} {cs : List (List Byte)} {vs : List α} {vss : List (List α)} {s : Status}
    (h : Drains parse next (x.1 ++ c, x.2) vs (.waiting y.1 y.2)) (t : Gets parse next y cs vss s) :
    Gets parse next x (c :: cs) (vs :: vss) s
  | stop {x : List Byte × Nat} {c : List Byte} {cs : List (List Byte)} {vs : List α} {s : Status}
    (h : Drains parse next (x.1 ++ c, x.2) vs s) (hs : ∀ buf off, s ≠ .waiting buf off) :
    Gets parse next x (c :: cs) (vs :: cs.map fun _ => []) s

/-- Of the messages with these bytes and values: the values of those that are complete in `data`, and what is left of
`data` behind them. -/
def arrived : List (List Byte × α) → List Byte → List α × List Byte
  | [], data => ([], data)
  | (out, v) :: ms, data =>
    if out.length ≤ data.length then (v :: (arrived ms (data.drop out.length)).1, (arrived ms (data.drop out.length)).2)
    else ([], data)

end Deku
