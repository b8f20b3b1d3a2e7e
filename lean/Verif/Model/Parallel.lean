import Verif.Model.Product
import Verif.Model.Num

/-!
# Model of the goroutines of key generation

`GenBlindRotateKeyParallel`, `GenDefaultKeySwitchKeyParallel` (tfhe/bootstrap_keygen.go) and the
`GenBlindRotateKeyParallel` of xtfhe/fhew_bootstrap_keygen.go have the same shape: one producer sends the
jobs over an unbuffered channel and closes it, `c` workers take jobs until the channel is closed, the
caller starts the workers and waits for a `sync.WaitGroup`.  The shape is a transition system; one step is
one action of one goroutine, and any goroutine that can act may act.

Every worker has its own encryptor (a `SafeCopy`): local state `σ`, which contains its buffers and its
samplers.  What the workers share is the key that they write, one value of type `τ` for every job.  The
body of a job is a list of instructions, one for every statement of the source; an instruction sees the
local state of its worker and the slot of its job.  That the source only touches this slot is read off
the source (`brk.Value[i].Value[j]`, `ksk.Value[i].Value[j]`), that distinct workers never hold the same
slot is proved.
-/
namespace Tfhe.Par

/-- A job `[2]int{i, j}`. -/
abbrev Job := Nat × Nat

/-- The program of a job: number of instructions, and the effect of instruction `pc`. -/
structure Body (σ τ : Type) where
  len : Job → Nat
  instr : Job → Nat → σ → τ → σ × τ

/-- The first `n` instructions of the program of a job. -/
def Body.run {σ τ : Type} (b : Body σ τ) (job : Job) (s : σ) (t : τ) : Nat → σ × τ
  | 0 => (s, t)
  | n + 1 => b.instr job n (b.run job s t n).1 (b.run job s t n).2

/-- A worker: waiting at `range jobs`, executing a job, or past `wg.Done()`. -/
inductive Worker
  | recv
  | busy (job : Job) (pc : Nat)
  | done
  deriving DecidableEq

/-- The state of all goroutines.  `started` counts the workers that the caller has started, `next` the
jobs that were sent; `hist` is a ghost: who received which job, in order. -/
structure State (c : Nat) (σ τ : Type) where
  started : Nat
  next : Nat
  closed : Bool
  worker : Fin c → Worker
  loc : Fin c → σ
  mem : Job → τ
  wg : Nat
  returned : Bool
  hist : List (Fin c × Job)

/-- One worker changes its control state. -/
def State.setW {c : Nat} {σ τ : Type} (s : State c σ τ) (w : Fin c) (x : Worker) : State c σ τ :=
  { s with worker := Function.update s.worker w x }

/-- The steps.  tfhe/bootstrap_keygen.go:68-101, 142-167; xtfhe/fhew_bootstrap_keygen.go:94-138. -/
inductive Step {c : Nat} {σ τ : Type} (jobs : List Job) (b : Body σ τ) : State c σ τ → State c σ τ → Prop
  /-- The caller starts the next worker: `go func(i int) {...}(i)`. -/
  | start (s) : s.started < c → Step jobs b s { s with started := s.started + 1 }
  /-- The producer sends and worker `w` receives: `jobs <- [2]int{i, j}` with `for job := range jobs`. -/
  | send (s) (w : Fin c) (job : Job) : jobs[s.next]? = some job → w.1 < s.started → s.worker w = .recv →
      Step jobs b s
        { s with next := s.next + 1, worker := Function.update s.worker w (.busy job 0), hist := s.hist ++ [(w, job)] }
  /-- The producer has sent everything: `defer close(jobs)`. -/
  | close (s) : s.next = jobs.length → s.closed = false → Step jobs b s { s with closed := true }
  /-- Worker `w` executes the next instruction of its job. -/
  | exec (s) (w : Fin c) (job : Job) (pc : Nat) : s.worker w = .busy job pc → pc < b.len job →
      Step jobs b s
        { s with
          worker := Function.update s.worker w (.busy job (pc + 1))
          loc := Function.update s.loc w (b.instr job pc (s.loc w) (s.mem job)).1
          mem := Function.update s.mem job (b.instr job pc (s.loc w) (s.mem job)).2 }
  /-- Worker `w` is at the end of its job and goes back to `range jobs`. -/
  | again (s) (w : Fin c) (job : Job) : s.worker w = .busy job (b.len job) → Step jobs b s (s.setW w .recv)
  /-- Worker `w` finds the channel closed and calls `wg.Done()`. -/
  | finish (s) (w : Fin c) : w.1 < s.started → s.worker w = .recv → s.closed = true →
      Step jobs b s { s.setW w .done with wg := s.wg - 1 }
  /-- The caller has started all workers, finds the counter at zero and returns: `wg.Wait()`. -/
  | ret (s) : s.started = c → s.wg = 0 → s.returned = false → Step jobs b s { s with returned := true }

/-- The start: `wg.Add(chunkCount)`, nothing sent, local states `loc` (the copies of the encryptor) and a
new key `mem`. -/
def init {c : Nat} {σ τ : Type} (loc : Fin c → σ) (mem : Job → τ) : State c σ τ :=
  { started := 0, next := 0, closed := false, worker := fun _ => .recv, loc := loc, mem := mem, wg := c,
    returned := false, hist := [] }

/-- The jobs in the order of the producer: `for i < n { for j < m { ... } }`.
tfhe/bootstrap_keygen.go:71-75, 145-149; xtfhe/fhew_bootstrap_keygen.go:97-101. -/
def jobList (n m : Nat) : List Job := (List.range n).flatMap fun i => (List.range m).map fun j => (i, j)

/-- The sequential generators: the same bodies, one after the other, with one local state.
tfhe/bootstrap_keygen.go:37-51, 115-123; xtfhe/fhew_bootstrap_keygen.go:52-77. -/
def sequential {σ τ : Type} (b : Body σ τ) (s : σ) (mem : Job → τ) : List Job → σ × (Job → τ)
  | [] => (s, mem)
  | job :: js =>
    let r := b.run job s (mem job) (b.len job)
    sequential b r.1 (Function.update mem job r.2) js

/-- `num.Min(runtime.NumCPU(), num.Sqrt(workSize))`; `none` is the panic of `Sqrt`.
tfhe/bootstrap_keygen.go:61, 135. -/
def chunkCount (numCPU : Nat) (workSize : Int) : Option Nat := (sqrt workSize).map (min numCPU)

/-! ## The bodies -/

/-- Local state of a worker of `GenDefaultKeySwitchKeyParallel`: the samplers, as streams. -/
structure KskLoc (w n : Nat) where
  uniform : Nat → Fin n → BitVec w
  gauss : Nat → BitVec w
  pos : Nat

/-- The four statements of a job of `GenDefaultKeySwitchKeyParallel`, the slot being
`ksk.Value[i].Value[j]`.  tfhe/bootstrap_keygen.go:158-162; the sequential form is 117-121. -/
def kskBody {w n : Nat} (g : GadgetParams w) (sk : Fin n → BitVec w) (skIn : Nat → BitVec w) :
    Body (KskLoc w n) (Fin (n + 1) → BitVec w) where
  len _ := 4
  instr job pc s t := match pc with
    | 0 => (s, Function.update t 0 (skIn job.1 <<< g.logBaseQ job.2))
    | 1 => (s, Fin.cons (t 0) (s.uniform s.pos))
    | 2 => (s, Function.update t 0 (t 0 + -dot (fun i => t i.succ) sk))
    | _ => ({ s with pos := s.pos + 1 }, Function.update t 0 (t 0 + s.gauss s.pos))

/-- Local state of a worker of `GenBlindRotateKeyParallel`: `e.buf.ptGGSW`, `e.buf.ctGLWE`, the samplers
and the FFT errors of the encryptions to come, as streams. -/
structure BrkLoc (P : Type) (k : Nat) where
  pt : P
  ct : Fin (k + 1) → P
  uniform : Nat → Fin k → P
  err : Nat → Fin k → P
  gauss : Nat → P
  pos : Nat

/-- The statements of a job of `GenBlindRotateKeyParallel`, the slot being `brk.Value[i].Value[j]`:
first the plaintext of row `j`, then for every level scale, encrypt and store.  `ptOf` is the plaintext.
tfhe/bootstrap_keygen.go:84-96, sequential 39-49; xtfhe/fhew_bootstrap_keygen.go:110-133, sequential 53-75. -/
def brkBody {P : Type} [Add P] [Sub P] [Mul P] {k : Nat} (level : Nat) (baseQ : Nat → P) (sk : Fin k → P)
    (ptOf : Job → P) : Body (BrkLoc P k) (Nat → Fin (k + 1) → P) where
  len _ := 3 * level + 1
  instr job pc s t := match pc with
    | 0 => ({ s with pt := ptOf job }, t)
    | pc + 1 => match pc % 3 with
      | 0 => ({ s with ct := Function.update s.ct 0 (baseQ (pc / 3) * s.pt) }, t)
      | 1 => ({ s with
                ct := encryptGLWEBody sk (s.uniform s.pos) (s.err s.pos) (s.gauss s.pos) (s.ct 0)
                pos := s.pos + 1 }, t)
      | _ => (s, Function.update t (pc / 3) s.ct)

/-- The plaintext of row `j` for LWE key element `i`: the constant, or its product with a key polynomial.
tfhe/bootstrap_keygen.go:86-91, sequential 39-44. -/
def brkPlain {w N k : Nat} [NeZero N] (sk : Fin k → Poly N (BitVec w)) (lwe : Nat → BitVec w) (job : Job) :
    Poly N (BitVec w) :=
  if job.2 = 0 then Poly.C N (lwe job.1)
  else if h : job.2 - 1 < k then Poly.C N (lwe job.1) * sk ⟨job.2 - 1, h⟩ else 0

end Tfhe.Par
