import Verif.Model.MultiKey
import Mathlib.Data.Set.Insert
import Mathlib.Data.Set.Lattice

/-!
# Model of the goroutines of multi-key blind rotation

`BlindRotateParallelTo` (mktfhe/bootstrap.go) starts one goroutine for every known party and waits for all of
them.  All goroutines work on one shared store; nothing in the model keeps a goroutine away from the memory of
another one.  The store maps addresses to values, an instruction is any function on the whole store together
with the sets of addresses it reads and writes (`Instr.Sound` says that the sets are right).  One step is one
action of one goroutine, and any goroutine that can act may act.

The instructions are the statements of the source, with `copy` taken element by element.  The theorems on the
machine hold for any instructions, so also for a finer cut of `BlindRotateTo` of the sub-evaluators.
-/
namespace Tfhe.Fork

/-- A store: a value for every address. -/
abbrev Store {A : Type} (V : A → Type) := (a : A) → V a

/-- An instruction and its footprint. -/
structure Instr {A : Type} (V : A → Type) where
  reads : Set A
  writes : Set A
  run : Store V → Store V

/-- The footprint is right: only `writes` change, and what is written depends on `reads` only. -/
structure Instr.Sound {A : Type} {V : A → Type} (I : Instr V) : Prop where
  frame : ∀ m a, a ∉ I.writes → I.run m a = m a
  dep : ∀ m m' : Store V, (∀ a ∈ I.reads, m a = m' a) → ∀ a ∈ I.writes, I.run m a = I.run m' a

/-- Two instructions conflict if one writes what the other one reads or writes. -/
def Conflict {A : Type} {V : A → Type} (I J : Instr V) : Prop :=
  (I.writes ∩ (J.reads ∪ J.writes)).Nonempty ∨ (J.writes ∩ (I.reads ∪ I.writes)).Nonempty

/-- Straight line code. -/
def runAll {A : Type} {V : A → Type} (l : List (Instr V)) (m : Store V) : Store V := l.foldl (fun m I => I.run m) m

/-- A function that starts the goroutines `i < P` with `on i` and waits for them: `pre` is what the caller
executes before the first `go`, `prog i` the body of goroutine `i`, `post i` what the caller does for `i` after
`wg.Wait()` (`none` is a panic). -/
structure Program {A : Type} (V : A → Type) where
  P : ℕ
  on : ℕ → Bool
  pre : List (Instr V)
  prog : ℕ → List (Instr V)
  post : ℕ → Store V → Option (Store V)

/-- The caller: in the prologue, at `if ok` of the first loop, between `wg.Add(1)` and `go`, in the second loop,
at the end. -/
inductive Main
  | pre (pc : ℕ)
  | spawn (i : ℕ)
  | go (i : ℕ)
  | post (i : ℕ)
  | returned
  | panicked
  deriving DecidableEq

/-- A goroutine: not started, at instruction `pc`, past `wg.Done()`. -/
inductive Thr
  | idle
  | run (pc : ℕ)
  | fin
  deriving DecidableEq

/-- The state of all goroutines. -/
structure State {A : Type} (V : A → Type) where
  main : Main
  thr : ℕ → Thr
  wg : ℕ
  mem : Store V

/-- The steps.  mktfhe/bootstrap.go:109-136. -/
inductive Step {A : Type} {V : A → Type} (p : Program V) : State V → State V → Prop
  /-- The caller executes its prologue. -/
  | pre (s) (pc : ℕ) (I : Instr V) : s.main = .pre pc → p.pre[pc]? = some I →
      Step p s { s with main := .pre (pc + 1), mem := I.run s.mem }
  /-- The prologue is over. -/
  | enter (s) : s.main = .pre p.pre.length → Step p s { s with main := .spawn 0 }
  /-- `for i, ok := range e.PartyBitMap`, `ok` false. -/
  | skip (s) (i : ℕ) : s.main = .spawn i → i < p.P → p.on i = false → Step p s { s with main := .spawn (i + 1) }
  /-- `wg.Add(1)`. -/
  | add (s) (i : ℕ) : s.main = .spawn i → i < p.P → p.on i = true → Step p s { s with main := .go i, wg := s.wg + 1 }
  /-- `go func(i int) {...}(i)`. -/
  | go (s) (i : ℕ) : s.main = .go i →
      Step p s { s with main := .spawn (i + 1), thr := Function.update s.thr i (.run 0) }
  /-- Goroutine `i` executes its next instruction. -/
  | exec (s) (i pc : ℕ) (I : Instr V) : s.thr i = .run pc → (p.prog i)[pc]? = some I →
      Step p s { s with thr := Function.update s.thr i (.run (pc + 1)), mem := I.run s.mem }
  /-- Goroutine `i` calls `wg.Done()`; a counter at zero is a panic. -/
  | done (s) (i : ℕ) : s.thr i = .run (p.prog i).length → s.wg ≠ 0 →
      Step p s { s with thr := Function.update s.thr i .fin, wg := s.wg - 1 }
  | donePanic (s) (i : ℕ) : s.thr i = .run (p.prog i).length → s.wg = 0 →
      Step p s { s with thr := Function.update s.thr i .fin, main := .panicked }
  /-- `wg.Wait()` after the first loop. -/
  | wait (s) : s.main = .spawn p.P → s.wg = 0 → Step p s { s with main := .post 0 }
  /-- The second loop. -/
  | postSkip (s) (i : ℕ) : s.main = .post i → i < p.P → p.on i = false → Step p s { s with main := .post (i + 1) }
  | post (s) (i : ℕ) (m : Store V) : s.main = .post i → i < p.P → p.on i = true → p.post i s.mem = some m →
      Step p s { s with main := .post (i + 1), mem := m }
  | postPanic (s) (i : ℕ) : s.main = .post i → i < p.P → p.on i = true → p.post i s.mem = none →
      Step p s { s with main := .panicked }
  | ret (s) : s.main = .post p.P → Step p s { s with main := .returned }

/-- The start. -/
def start {A : Type} {V : A → Type} (m : Store V) : State V :=
  { main := .pre 0, thr := fun _ => .idle, wg := 0, mem := m }

/-- The states that some schedule reaches. -/
inductive Reach {A : Type} {V : A → Type} (p : Program V) (m0 : Store V) : State V → Prop
  | start : Reach p m0 (start m0)
  | step (s s') : Reach p m0 s → Step p s s' → Reach p m0 s'

/-- The second loop on its own. -/
def postLoop {A : Type} {V : A → Type} (p : Program V) (n : ℕ) (m : Store V) : Option (Store V) :=
  (List.range n).foldlM (fun m i => if p.on i then p.post i m else some m) m
end Tfhe.Fork

/-! ### `BlindRotateParallelTo` -/
namespace Tfhe.Mk
open Tfhe.Fork

/-- The memory that the function and its goroutines touch. -/
inductive Addr
  /-- `ct.Value[t]` -/
  | ct (t : ℕ)
  /-- `e.gadgetLUTs[j].Value[0]` -/
  | gadget (j : ℕ)
  /-- Component `t` of multi-key GLWE ciphertext `v`; the output is one of them. -/
  | glwe (v t : ℕ)
  /-- `e.buf.ctRotateIn[i].Value[t]` -/
  | rotIn (i t : ℕ)
  /-- `e.buf.ctAccs[i].Value[c]` -/
  | acc (i : ℕ) (c : Fin 2)
  /-- `e.buf.ctFFTAccs[i].Value[j].Value[c]` -/
  | fftAcc (i j : ℕ) (c : Fin 2)
  /-- The buffers inside `e.SubEvaluators[i]` (its accumulators, decomposer and transformer buffers).  Every
  sub-evaluator has its own: mktfhe/evaluator.go:84-91, 171, 178-183. -/
  | sub (i : ℕ)
  deriving DecidableEq

/-- What the addresses hold. -/
abbrev Val (w N : ℕ) : Addr → Type
  | .ct _ => BitVec w
  | .gadget _ => Poly N (BitVec w)
  | .glwe _ _ => Poly N (BitVec w)
  | .rotIn _ _ => BitVec w
  | .acc _ _ => Poly N (BitVec w)
  | .fftAcc _ _ _ => Poly N (BitVec w)
  | .sub _ => ℕ → Poly N (BitVec w)

section
variable {w N : ℕ} [NeZero N]
local notation "Pol" => Poly N (BitVec w)

/-- The multi-key ciphertexts in the store. -/
def glweOf (m : Store (Val w N)) : Mem Pol := fun v t => m (.glwe v t)
/-- The input ciphertext in the store. -/
def ctOfMem (m : Store (Val w N)) : ℕ → BitVec w := fun t => m (.ct t)
/-- The input of the rotations of party `i`. -/
def rotInOf (m : Store (Val w N)) (i : ℕ) : ℕ → BitVec w := fun t => m (.rotIn i t)
/-- The store with other multi-key ciphertexts. -/
def setGlwe (m : Store (Val w N)) (g : Mem Pol) : Store (Val w N) := fun a =>
  match a with
  | .glwe v t => g v t
  | a => m a

/-- `e.buf.ctRotateIn[i].Value[0] = 0`.  mktfhe/bootstrap.go:119. -/
def setBody (i : ℕ) : Instr (Val w N) where
  reads := ∅
  writes := {.rotIn i 0}
  run m := Function.update m (.rotIn i 0) (0 : BitVec w)
/-- One element of `copy(e.buf.ctRotateIn[i].Value[1:], ct.Value[...])`.  mktfhe/bootstrap.go:120. -/
def copyMask (n i t : ℕ) : Instr (Val w N) where
  reads := {.ct (i * n + (t + 1))}
  writes := {.rotIn i (t + 1)}
  run m := Function.update m (.rotIn i (t + 1)) (m (.ct (i * n + (t + 1))))
/-- `BlindRotateTo` of sub-evaluator `i` on table `j`: reads the `n + 1` elements of the input, the table and its
own buffers, and writes the accumulator and its own buffers.  The float64 errors are a function `err` of the
input, the new contents of the buffers any function `scratch` of what is read.  mktfhe/bootstrap.go:122. -/
def rotateInstr (G : Gadget Pol) (bs bc i j : ℕ) (brk : ℕ → Fin 2 → ℕ → Fin 2 → Pol)
    (err : (Fin (bs * bc + 1) → BitVec w) → ℕ → ℕ → Fin 2 → Pol)
    (scratch : (Fin (bs * bc + 1) → BitVec w) → Pol → (ℕ → Pol) → ℕ → Pol) : Instr (Val w N) where
  reads := {a | (∃ t ≤ bs * bc, a = .rotIn i t) ∨ a = .gadget j ∨ a = .sub i}
  writes := {a | (∃ c, a = .acc i c) ∨ a = .sub i}
  run m :=
    let inp : Fin (bs * bc + 1) → BitVec w := fun t => rotInOf m i t
    let res : Fin 2 → Pol := blindRotate G 1 bs bc brk (err inp) (m (.sub i)) (ext0 inp) (fun _ => m (.gadget j))
    fun a => match a with
      | .acc i' c => if i' = i then res c else m (.acc i' c)
      | .sub i' => if i' = i then scratch inp (m (.gadget j)) (m (.sub i)) else m (.sub i')
      | a => m a
/-- `FwdFFTGLWECiphertextTo` into slot `j`; the rounding is part of the errors of the products that use the
result, as in `accOf`.  mktfhe/bootstrap.go:123. -/
def toFFT (i j : ℕ) : Instr (Val w N) where
  reads := {a | ∃ c, a = .acc i c}
  writes := {a | ∃ c, a = .fftAcc i j c}
  run m := fun a => match a with
    | .fftAcc i' j' c => if i' = i ∧ j' = j then m (.acc i c) else m (.fftAcc i' j' c)
    | a => m a

/-- The body of goroutine `i` with `L` accumulator levels.  mktfhe/bootstrap.go:118-126. -/
def partyProg (L : ℕ) (G : Gadget Pol) (bs bc : ℕ) (brk : ℕ → Fin 2 → ℕ → Fin 2 → Pol)
    (err : ℕ → (Fin (bs * bc + 1) → BitVec w) → ℕ → ℕ → Fin 2 → Pol)
    (scratch : (Fin (bs * bc + 1) → BitVec w) → Pol → (ℕ → Pol) → ℕ → Pol) (i : ℕ) : List (Instr (Val w N)) :=
  setBody i :: ((List.range (bs * bc)).map (copyMask (bs * bc) i)
    ++ (List.range L).flatMap fun j => [rotateInstr G bs bc i j brk (err j) scratch, toFFT i j])

/-- `ctOut.Clear()` and the body of the output, before the goroutines start.  mktfhe/bootstrap.go:110-112. -/
def initInstr (P : ℕ) (lut : ℕ → Pol) (out : ℕ) : Instr (Val w N) where
  reads := {a | a = .ct 0 ∨ ∃ v t, a = .glwe v t}
  writes := {a | ∃ v t, a = .glwe v t}
  run m := setGlwe m (rotateInit P (ctOfMem m) lut out (glweOf m))

/-- `ExternalProdGLWETo(i, e.buf.ctFFTAccs[i], ctOut, ctOut)`.  mktfhe/bootstrap.go:131-135. -/
def postParty (P : ℕ) (keys : ℕ → Option (EvalKey Pol)) (gacc : GadgetParams w) (Gr : Gadget Pol)
    (ext : ℕ → ExtArgs Pol) (out i : ℕ) (m : Store (Val w N)) : Option (Store (Val w N)) :=
  let x := ext i
  (externalProdTo P keys i (polyGadget N gacc) Gr (fun j c => m (.fftAcc i j c)) x.bufT x.bufR x.buf x.errT x.errSub
    x.err out out (glweOf m)).map (setGlwe m)

/-- What `BlindRotateParallelTo` works with: the parties and keys, gadgets, block size and count, float64 errors
`errBR i j` of rotation `j` of party `i` as a function of its input, `scratch` (see `rotateInstr`), the external
products, the table and the output. -/
structure ParArgs (w N : ℕ) [NeZero N] where
  P : ℕ
  keys : ℕ → Option (EvalKey (Poly N (BitVec w)))
  gacc : GadgetParams w
  Gbr : Gadget (Poly N (BitVec w))
  Gr : Gadget (Poly N (BitVec w))
  bs : ℕ
  bc : ℕ
  brk : ℕ → ℕ → Fin 2 → ℕ → Fin 2 → Poly N (BitVec w)
  errBR : ℕ → ℕ → (Fin (bs * bc + 1) → BitVec w) → ℕ → ℕ → Fin 2 → Poly N (BitVec w)
  scratch : (Fin (bs * bc + 1) → BitVec w) → Poly N (BitVec w) → (ℕ → Poly N (BitVec w)) → ℕ → Poly N (BitVec w)
  xs : ℕ → ExtArgs (Poly N (BitVec w))
  lut : ℕ → Poly N (BitVec w)
  out : ℕ

/-- The body of goroutine `i`. -/
def ParArgs.party (x : ParArgs w N) (L i : ℕ) : List (Instr (Val w N)) :=
  partyProg L x.Gbr x.bs x.bc (x.brk i) (x.errBR i) x.scratch i

/-- `BlindRotateParallelTo`.  mktfhe/bootstrap.go:109-136. -/
def ParArgs.program (x : ParArgs w N) : Program (Val w N) where
  P := x.P
  on := isOn x.keys
  pre := [initInstr x.P x.lut x.out]
  prog i := x.party x.gacc.level i
  post := postParty x.P x.keys x.gacc x.Gr x.xs x.out

/-- `BlindRotateTo` on the same data, sequentially.  `old` are the old contents of the buffers, `m` the multi-key
ciphertexts in memory.  mktfhe/bootstrap.go:84-99. -/
def ParArgs.sequential (x : ParArgs w N) (old : ℕ → ℕ → Pol) (ct : ℕ → BitVec w) (m : Mem Pol) : Option (Mem Pol) :=
  blindRotateTo x.P x.keys x.gacc x.Gbr x.Gr x.bs x.bc x.brk
    (fun i j => x.errBR i j fun t => rotateIn (x.bs * x.bc) i ct t) old x.xs ct x.lut x.out m
end
end Tfhe.Mk
