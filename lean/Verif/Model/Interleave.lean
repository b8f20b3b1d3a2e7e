import Verif.Model.Scratch
import Mathlib.Logic.Relation
import Mathlib.Logic.Function.Basic

/-!
# Evaluators in several goroutines

Each goroutine runs a program of `Verif.Model.Scratch` on an evaluator; the memory of the caller is shared
and every evaluator has its own buffers.  The steps of the goroutines (reads and writes of one cell) are
interleaved in any order.  This is the sequentially consistent semantics, which the Go memory model
grants to programs without data races.
-/
namespace Tfhe.Scratch

variable {w : ℕ} {F : Type}

/-- The first step of a program. -/
def Prog.step {A : Type} : Prog w F A → Mem w F → Option (Prog w F A × Mem w F)
  | .ret _, _ => none
  | .panic, _ => none
  | .rd l k, m => some (k (m.wd l), m)
  | .wr l x k, m => some (k, m.setW l x)
  | .rdF l k, m => some (k (m.ft l), m)
  | .wrF l x k, m => some (k, m.setF l x)
  | .lens k, m => some (k m.cLen m.pLen m.fpLen, m)
  | .growC n k, m => some (k, m.growC n)
  | .growP n k, m => some (k, m.growP n)
  | .growF n z k, m => some (k, m.growF n z)

/-- The memory of the caller and, for every evaluator, a memory of which only the buffers count. -/
structure World (κ : Type) (w : ℕ) (F : Type) where
  uw : ℕ → BitVec w
  uf : ℕ → F
  priv : κ → Mem w F

variable {κ ι : Type}

/-- The memory that the methods of evaluator `e` see. -/
def World.view (g : World κ w F) (e : κ) : Mem w F where
  wd := fun l => match l with
    | .user a => g.uw a
    | l => (g.priv e).wd l
  ft := fun l => match l with
    | .user a => g.uf a
    | l => (g.priv e).ft l
  cLen := (g.priv e).cLen
  pLen := (g.priv e).pLen
  fpLen := (g.priv e).fpLen

/-- The world after a step of evaluator `e` that led to the memory `m`. -/
def World.put [DecidableEq κ] (g : World κ w F) (e : κ) (m : Mem w F) : World κ w F where
  uw := fun a => m.wd (.user a)
  uf := fun a => m.ft (.user a)
  priv := Function.update g.priv e m

/-- What the goroutines still have to do, and the memory. -/
structure Conf (ι κ : Type) (w : ℕ) (F : Type) where
  todo : ι → Prog w F Unit
  mem : World κ w F

/-- One goroutine makes a step; goroutine `i` uses the evaluator `own i`. -/
inductive Step [DecidableEq ι] [DecidableEq κ] (own : ι → κ) : Conf ι κ w F → Conf ι κ w F → Prop where
  | mk (c : Conf ι κ w F) (i : ι) (p : Prog w F Unit) (m : Mem w F) :
      (c.todo i).step (c.mem.view (own i)) = some (p, m) →
      Step own c ⟨Function.update c.todo i p, c.mem.put (own i) m⟩

/-- Any number of steps. -/
abbrev Exec [DecidableEq ι] [DecidableEq κ] (own : ι → κ) : Conf ι κ w F → Conf ι κ w F → Prop :=
  Relation.ReflTransGen (Step own)

/-- Calls one after the other. -/
def runAll (O : Ops w F) (E : Ev w) : List (Call w) → M w F Unit
  | [] => pure ()
  | c :: cs => do c.run O E; runAll O E cs

/-- The buffers of the evaluator that `SafeCopy` returns: new ones, those of the decomposer as long as those
of the original.  The parameters and keys are shared.  tfhe/evaluator.go:148-164,
tfhe/decomposer.go:40-59. -/
def safeCopy (O : Ops w F) (m : Mem w F) : Mem w F where
  wd := fun l => match l with
    | .user a => m.wd (.user a)
    | _ => 0
  ft := fun l => match l with
    | .user a => m.ft (.user a)
    | _ => O.zero
  cLen := m.cLen
  pLen := m.pLen
  fpLen := m.fpLen

end Tfhe.Scratch
