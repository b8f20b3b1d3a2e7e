import Verif.Model.Bytes

/-!
# Writers that may fail, and what a `WriteTo` method owes its caller

An `io.Writer` is any state machine: given its state and the bytes of one `Write` call it answers
with a new state, the number of bytes it took and whether it returned an error.  The contract of
`io.Writer` (package io of the Go standard library) is `Sink.Contract`.  A run of `WriteTo` is
recorded call by call, so that what the writer took and what the method reports can be compared.
-/
namespace Tfhe.Ser

/-- An `io.Writer` with states `σ`: the answer to `Write(p)` in a state. -/
structure Sink (σ : Type) where
  write : σ → Bytes → σ × ℕ × Bool

/-- "Write returns the number of bytes written from p (0 <= n <= len(p)) … must return a non-nil
error if it returns n < len(p)". -/
def Sink.Contract {σ : Type} (S : Sink σ) : Prop :=
  ∀ st b, (S.write st b).2.1 ≤ b.length ∧
    ((S.write st b).2.1 < b.length → (S.write st b).2.2 = true)

/-- One call of `Write`: its argument and the answer. -/
structure Call where
  arg : Bytes
  n : ℕ
  failed : Bool
deriving DecidableEq

/-- What `WriteTo` did: the calls of `Write` in order, the writer afterwards, and the returned count
and whether the returned error is not nil. -/
structure Out (σ : Type) where
  st : σ
  log : List Call
  n : ℕ
  err : Bool
deriving DecidableEq

/-- The bytes that reached the writer. -/
def accepted (log : List Call) : Bytes := log.flatMap fun c => c.arg.take c.n

/-- The calls recorded are the ones the writer answered. -/
inductive Answers {σ : Type} (S : Sink σ) : σ → List Call → σ → Prop
  | nil (st : σ) : Answers S st [] st
  | cons {st st' st'' : σ} {c : Call} {log : List Call} :
      S.write st c.arg = (st', c.n, c.failed) → Answers S st' log st'' →
      Answers S st (c :: log) st''

/-- What holds of every run of `WriteTo` for an object with encoding `b`, apart from the returned
count: what reached the writer is the beginning of the encoding; the method returns an error exactly
if a `Write` returned one, and makes no further call after it; without an error all of the encoding
was written, and the count is its length. -/
structure Delivers {σ : Type} (S : Sink σ) (st : σ) (b : Bytes) (o : Out σ) : Prop where
  run : Answers S st o.log o.st
  pre : accepted o.log <+: b
  err : o.err = true ↔ ∃ c ∈ o.log, c.failed = true
  stop : ∀ c ∈ o.log.dropLast, c.failed = false
  whole : o.err = false → accepted o.log = b ∧ o.n = b.length

/-- The returned count is the number of bytes that reached the writer, error or not. -/
def CountsBytes {σ : Type} (o : Out σ) : Prop := o.n = (accepted o.log).length

/-- A full disk: a writer with room for `r` more bytes. -/
def diskSink : Sink ℕ where
  write r b := if b.length ≤ r then (r - b.length, b.length, false) else (0, r, true)

/-- A run of `WriteTo` as a function of the writer; `none` is a panic. -/
abbrev Prog (σ : Type) := Sink σ → σ → Option (Out σ)

/-- `WriteTo` is right on every writer: it does not panic, delivers the encoding and reports the
number of bytes that reached the writer. -/
def WritesTo {σ : Type} (p : Prog σ) (b : Bytes) : Prop :=
  ∀ S : Sink σ, S.Contract → ∀ st, ∃ o, p S st = some o ∧ Delivers S st b o ∧ CountsBytes o

/-- The same without the count. -/
def WritesToUncounted {σ : Type} (p : Prog σ) (b : Bytes) : Prop :=
  ∀ S : Sink σ, S.Contract → ∀ st, ∃ o, p S st = some o ∧ Delivers S st b o

/-- What a `ReadFrom` method owes its caller on a stream `s`, unless it panics: the returned count is
the number of bytes taken from the stream, and an error leaves nothing (the methods return an error
only when the stream ends before the object does). -/
def ReadsCounted {α : Type} (read : Reader α) : Prop :=
  ∀ s, match read s with
    | .ok n _ rest => n ≤ s.length ∧ rest = s.drop n
    | .err n => n = s.length
    | .panic => True

end Tfhe.Ser
