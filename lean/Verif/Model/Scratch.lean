import Verif.Model.Gadget
import Verif.Model.Bootstrap

/-!
# Model of the evaluator with its scratch buffers

`tfhe/decomposer.go`, `tfhe/keyswitch.go`, `tfhe/product.go`, `tfhe/bootstrap.go`,
`tfhe/bootstrap_lut.go` and the buffers of `tfhe/evaluator.go`, as programs on a memory: every read
and every write of a scratch buffer is a step of the model, in the order of the code.

The memory holds the words and transformed polynomials of the caller (`user`; ciphertexts, keys and
tables are slices of it, which may overlap in any way) and the buffers of the evaluator and its
decomposer.  A word buffer is modelled word by word.  A transformed polynomial is one cell with
contents in an arbitrary type `F`, and what the transforms and the pointwise operations compute is
arbitrary (`Ops`): floating-point arithmetic is one instance.  All transformed polynomials have the
rank of the evaluator.  `none` is a panic.  The lazily grown buffers of the decomposer carry their
length; a slice beyond the length of another buffer or argument is taken to be a panic (capacity is
not modelled).  A whole polynomial is read before a transform or before `copy`.
-/
namespace Tfhe.Scratch

/-- Cells that hold a word.  `user`: memory of the caller.  `cDcmp`, `pDcmp`: tfhe/decomposer.go:21-28.
The others: tfhe/evaluator.go:38-76. -/
inductive WLoc where
  | user (a : ℕ)
  | cDcmp (i : ℕ)
  | pDcmp (j i : ℕ)
  | prodLWE (i : ℕ)
  | cmux (t i : ℕ)
  | acc (q t i : ℕ)
  | rotate (t i : ℕ)
  | extract (i : ℕ)
  | keySwitch (i : ℕ)
  | lut (q i : ℕ)
  | lutRaw (i : ℕ)
deriving DecidableEq

/-- Cells that hold a transformed polynomial.  tfhe/decomposer.go:26-27, tfhe/evaluator.go:38-76. -/
inductive FLoc where
  | user (a : ℕ)
  | fpDcmp (j : ℕ)
  | fpMul
  | prod (t : ℕ)
  | fftAcc (q t : ℕ)
  | blkAcc (q t : ℕ)
  | accDcmp (q t l : ℕ)
  | fMono
deriving DecidableEq

/-- The memory: contents of all cells and the lengths of the three buffers of the decomposer. -/
structure Mem (w : ℕ) (F : Type) where
  wd : WLoc → BitVec w
  ft : FLoc → F
  cLen : ℕ
  pLen : ℕ
  fpLen : ℕ

/-- A program: a tree of steps.  Each step reads or writes one cell, or reads the lengths of the buffers of
the decomposer, or makes one of them longer. -/
inductive Prog (w : ℕ) (F A : Type) where
  | ret (a : A)
  | panic
  | rd (l : WLoc) (k : BitVec w → Prog w F A)
  | wr (l : WLoc) (x : BitVec w) (k : Prog w F A)
  | rdF (l : FLoc) (k : F → Prog w F A)
  | wrF (l : FLoc) (x : F) (k : Prog w F A)
  | lens (k : ℕ → ℕ → ℕ → Prog w F A)
  | growC (n : ℕ) (k : Prog w F A)
  | growP (n : ℕ) (k : Prog w F A)
  | growF (n : ℕ) (z : F) (k : Prog w F A)

/-- `x` is written to the cell `l`. -/
def Mem.setW {w : ℕ} {F : Type} (m : Mem w F) (l : WLoc) (x : BitVec w) : Mem w F :=
  { m with wd := fun l' => if l' = l then x else m.wd l' }

/-- `x` is written to the cell `l`. -/
def Mem.setF {w : ℕ} {F : Type} (m : Mem w F) (l : FLoc) (x : F) : Mem w F :=
  { m with ft := fun l' => if l' = l then x else m.ft l' }

/-- `cDcmp` grows to length `n`, with zeros.  tfhe/decomposer.go:69-70. -/
def Mem.growC {w : ℕ} {F : Type} (m : Mem w F) (n : ℕ) : Mem w F :=
  { m with
    wd := fun l => match l with
      | .cDcmp i => if m.cLen ≤ i ∧ i < n then 0 else m.wd (.cDcmp i)
      | l => m.wd l
    cLen := n }

/-- `pDcmp` grows to length `n`, with zero polynomials.  tfhe/decomposer.go:82-86. -/
def Mem.growP {w : ℕ} {F : Type} (m : Mem w F) (n : ℕ) : Mem w F :=
  { m with
    wd := fun l => match l with
      | .pDcmp j i => if m.pLen ≤ j ∧ j < n then 0 else m.wd (.pDcmp j i)
      | l => m.wd l
    pLen := n }

/-- `fpDcmp` grows to length `n`, with zero polynomials.  tfhe/decomposer.go:98-102. -/
def Mem.growF {w : ℕ} {F : Type} (m : Mem w F) (n : ℕ) (z : F) : Mem w F :=
  { m with
    ft := fun l => match l with
      | .fpDcmp j => if m.fpLen ≤ j ∧ j < n then z else m.ft (.fpDcmp j)
      | l => m.ft l
    fpLen := n }

/-- All steps, without interruption: the result and the new memory, or a panic. -/
def Prog.run {w : ℕ} {F A : Type} : Prog w F A → Mem w F → Option (A × Mem w F)
  | .ret a, m => some (a, m)
  | .panic, _ => none
  | .rd l k, m => (k (m.wd l)).run m
  | .wr l x k, m => k.run (m.setW l x)
  | .rdF l k, m => (k (m.ft l)).run m
  | .wrF l x k, m => k.run (m.setF l x)
  | .lens k, m => (k m.cLen m.pLen m.fpLen).run m
  | .growC n k, m => k.run (m.growC n)
  | .growP n k, m => k.run (m.growP n)
  | .growF n z k, m => k.run (m.growF n z)

/-- First `p`, then `f` with the result of `p`. -/
def Prog.bind {w : ℕ} {F A B : Type} (p : Prog w F A) (f : A → Prog w F B) : Prog w F B := match p with
  | .ret a => f a
  | .panic => .panic
  | .rd l k => .rd l fun x => (k x).bind f
  | .wr l x k => .wr l x (k.bind f)
  | .rdF l k => .rdF l fun x => (k x).bind f
  | .wrF l x k => .wrF l x (k.bind f)
  | .lens k => .lens fun a b c => (k a b c).bind f
  | .growC n k => .growC n (k.bind f)
  | .growP n k => .growP n (k.bind f)
  | .growF n z k => .growF n z (k.bind f)

instance {w : ℕ} {F : Type} : Monad (Prog w F) where
  pure := .ret
  bind := .bind

/-- A program. -/
abbrev M (w : ℕ) (F A : Type) := Prog w F A

instance {w : ℕ} {F A : Type} : CoeFun (Prog w F A) fun _ => Mem w F → Option (A × Mem w F) := ⟨Prog.run⟩

theorem run_bind {w : ℕ} {F A B : Type} (p : M w F A) (f : A → M w F B) (m : Mem w F) :
    (p >>= f) m = (p m).bind fun r => f r.1 r.2 := by
  show (Prog.bind p f).run m = _
  induction p generalizing m with
  | ret a => rfl
  | panic => rfl
  | rd l k ih => exact ih _ m
  | wr l x k ih => exact ih _
  | rdF l k ih => exact ih _ m
  | wrF l x k ih => exact ih _
  | lens k ih => exact ih _ _ _ m
  | growC n k ih => exact ih _
  | growP n k ih => exact ih _
  | growF n z k ih => exact ih _

/-- A Go slice of words: where element `i` is, and how many there are. -/
structure Vec where
  cell : ℕ → WLoc
  len : ℕ

/-- A slice of the memory of the caller. -/
structure UVec where
  off : ℕ
  len : ℕ

/-- A slice of the caller as a slice. -/
def UVec.vec (v : UVec) : Vec := ⟨fun i => .user (v.off + i), v.len⟩

/-- What the transforms and the operations on transformed polynomials compute: arbitrary functions.
`invLeft` is what the `Unsafe` inverse transforms leave in their argument. -/
structure Ops (w : ℕ) (F : Type) where
  zero : F
  fwd : List (BitVec w) → F
  inv : F → ℕ → BitVec w
  invLeft : F → F
  mul : F → F → F
  mulAdd : F → F → F → F
  mulSub : F → F → F → F
  sub : F → F → F
  mono : ℕ → F
  monoSubOne : ℤ → F
  monoMul : ℤ → List (BitVec w) → ℕ → BitVec w

/-- The parts of the parameters and of the evaluation key that the evaluator uses: `n` is the LWE
dimension, `dim` the default one, `k` the GLWE rank, `N` the polynomial rank, `f` the extension factor,
`bs`, `bc` block size and number; `brk i t j` are the addresses of the components of the blind rotation
key, `ksk i j` the slices of the key switching key. -/
structure Ev (w : ℕ) where
  n : ℕ
  dim : ℕ
  k : ℕ
  N : ℕ
  f : ℕ
  bs : ℕ
  bc : ℕ
  br : GadgetParams w
  ks : GadgetParams w
  order : BootstrapOrder
  modulus : BitVec w
  scale : BitVec w
  brk : ℕ → ℕ → ℕ → ℕ → ℕ
  ksk : ℕ → ℕ → UVec

section
variable {w : ℕ} {F : Type}

/-! ### Steps -/

/-- A panic. -/
def panic {A : Type} : M w F A := .panic

/-- Read of `v[i]`. -/
def rd (v : Vec) (i : ℕ) : M w F (BitVec w) := if i < v.len then .rd (v.cell i) .ret else .panic

/-- `v[i] = x`. -/
def wr (v : Vec) (i : ℕ) (x : BitVec w) : M w F Unit := if i < v.len then .wr (v.cell i) x (.ret ()) else .panic

/-- Read of some cells. -/
def rdList : List WLoc → M w F (List (BitVec w))
  | [] => pure []
  | l :: ls => .rd l fun x => do
    let xs ← rdList ls
    pure (x :: xs)

/-- All elements of a slice. -/
def rdAll (v : Vec) : M w F (List (BitVec w)) := rdList ((List.range v.len).map v.cell)

/-- Read of a transformed polynomial. -/
def rdF (l : FLoc) : M w F F := .rdF l .ret

/-- Write of a transformed polynomial. -/
def wrF (l : FLoc) (x : F) : M w F Unit := .wrF l x (.ret ())

/-- `n` iterations of a loop body, from index `a`. -/
def loopN (body : ℕ → M w F Unit) : ℕ → ℕ → M w F Unit
  | 0, _ => pure ()
  | n + 1, a => do body a; loopN body n (a + 1)

/-- `for i := a; i < b; i++`. -/
def forUp (a b : ℕ) (body : ℕ → M w F Unit) : M w F Unit := loopN body (b - a) a

/-- `checkLength`, and index checks.  math/vec/vec.go:17-27, math/poly/poly.go:135-141. -/
def check (b : Bool) : M w F Unit := if b then pure () else panic

/-- A value that may be missing; if it is, a panic. -/
def need {A : Type} : Option A → M w F A
  | some x => pure x
  | none => panic

/-- `xs[i]` for a slice of slices. -/
def elem {A : Type} (xs : List A) (i : ℕ) : M w F A := need xs[i]?

/-! ### Vectors

`vec.ScalarMulTo` and the others are unrolled in blocks of eight, with the same order of steps.  (For
slices of length zero the code panics unless there is capacity; the model does nothing.) -/

/-- `copy(dst, src)`. -/
def copyTo (dst src : Vec) : M w F Unit := do
  let xs ← rdAll src
  forUp 0 (min dst.len src.len) fun i => do wr dst i (← elem xs i)

/-- `vec.Fill(v, 0)`.  math/vec/vec.go:44-48. -/
def clear (v : Vec) : M w F Unit := forUp 0 v.len fun i => wr v i 0

/-- `vec.ScalarMulTo`.  math/vec/asm_vec.go:76-103. -/
def scalarMulTo (out v : Vec) (c : BitVec w) : M w F Unit := do
  check (out.len == v.len)
  forUp 0 out.len fun i => do
    let x ← rd v i
    wr out i (c * x)

/-- `vec.ScalarMulAddTo`.  math/vec/asm_vec.go:106-133. -/
def scalarMulAddTo (out v : Vec) (c : BitVec w) : M w F Unit := do
  check (out.len == v.len)
  forUp 0 out.len fun i => do
    let o ← rd out i
    let x ← rd v i
    wr out i (o + c * x)

/-- `vec.ScalarMulSubTo`.  math/vec/asm_vec.go:136-163. -/
def scalarMulSubTo (out v : Vec) (c : BitVec w) : M w F Unit := do
  check (out.len == v.len)
  forUp 0 out.len fun i => do
    let o ← rd out i
    let x ← rd v i
    wr out i (o - c * x)

/-- `vec.AddTo`.  math/vec/asm_vec.go:12-41. -/
def addTo (out v0 v1 : Vec) : M w F Unit := do
  check (out.len == v0.len && out.len == v1.len)
  forUp 0 out.len fun i => do
    let x ← rd v0 i
    let y ← rd v1 i
    wr out i (x + y)

/-- `vec.SubTo`.  math/vec/asm_vec.go:44-73. -/
def subTo (out v0 v1 : Vec) : M w F Unit := do
  check (out.len == v0.len && out.len == v1.len)
  forUp 0 out.len fun i => do
    let x ← rd v0 i
    let y ← rd v1 i
    wr out i (x - y)

/-! ### The buffers of the decomposer -/

/-- `ScalarBuffer`.  tfhe/decomposer.go:64-72. -/
def scalarBuffer (g : GadgetParams w) : M w F Vec :=
  .lens fun c _ _ => if g.level ≤ c then .ret ⟨.cDcmp, g.level⟩ else .growC g.level (.ret ⟨.cDcmp, g.level⟩)

/-- `PolyBuffer`; the polynomials have the rank `N` of the evaluator.  tfhe/decomposer.go:77-88. -/
def polyBuffer (N : ℕ) (g : GadgetParams w) : M w F (List Vec) :=
  let out := (List.range g.level).map fun j => (⟨.pDcmp j, N⟩ : Vec)
  .lens fun _ p _ => if g.level ≤ p then .ret out else .growP g.level (.ret out)

/-- `FFTPolyBuffer`.  tfhe/decomposer.go:93-104. -/
def fftPolyBuffer (O : Ops w F) (g : GadgetParams w) : M w F (List FLoc) :=
  let out := (List.range g.level).map FLoc.fpDcmp
  .lens fun _ _ f => if g.level ≤ f then .ret out else .growF g.level O.zero (.ret out)

/-- `Decomposer.buf.cDcmp[:level]`.  tfhe/bootstrap.go:372. -/
def sliceScalar (level : ℕ) : M w F Vec :=
  .lens fun c _ _ => if level ≤ c then .ret ⟨.cDcmp, level⟩ else .panic

/-- `Decomposer.buf.pDcmp[:level]`.  tfhe/bootstrap.go:67, 271, 322. -/
def slicePoly (N level : ℕ) : M w F (List Vec) :=
  .lens fun _ p _ => if level ≤ p then .ret ((List.range level).map fun j => ⟨.pDcmp j, N⟩) else .panic

/-! ### Decomposition -/

/-- The loop `for i := level-1; i >= 1; i--` of a decomposition into the cells `out 0`, `out 1`, …;
returns the last value of `u`.  tfhe/decomposer.go:116-121, tfhe/asm_decompose.go:15-20. -/
def dcmpDown (g : GadgetParams w) (out : ℕ → Option (Vec × ℕ)) : ℕ → BitVec w → M w F (BitVec w)
  | 0, u => pure u
  | i + 1, u => do
    let (v, p) ← need (out (i + 1))
    wr v p (u &&& (g.base - 1#w))
    let d ← rd v p
    let u := (u >>> g.logBase) + (d >>> (g.logBase - 1))
    let d ← rd v p
    wr v p (d - ((d &&& (g.base >>> 1)) <<< 1))
    dcmpDown g out i u

/-- A decomposition into the cells `out 0`, `out 1`, ….
tfhe/decomposer.go:115-123, tfhe/asm_decompose.go:14-22. -/
def dcmp (g : GadgetParams w) (out : ℕ → Option (Vec × ℕ)) (x : BitVec w) : M w F Unit := do
  let u ← dcmpDown g out (g.level - 1) (divRoundBits x g.logLastBaseQ)
  let (v, p) ← need (out 0)
  wr v p (u &&& (g.base - 1#w))
  let d ← rd v p
  wr v p (d - ((d &&& (g.base >>> 1)) <<< 1))

/-- `DecomposeScalarTo`.  tfhe/decomposer.go:114-124. -/
def decomposeScalarTo (g : GadgetParams w) (out : Vec) (x : BitVec w) : M w F Unit :=
  dcmp g (fun i => some (out, i)) x

/-- `DecomposePolyTo`; there is no check that the ranks agree.
tfhe/decomposer.go:137-139, tfhe/asm_decompose.go:11-24. -/
def decomposePolyTo (g : GadgetParams w) (out : List Vec) (p : Vec) : M w F Unit :=
  forUp 0 p.len fun i => do
    let x ← rd p i
    dcmp g (fun j => out[j]?.map fun v => (v, i)) x

/-! ### Polynomials -/

variable (O : Ops w F) (E : Ev w)

/-- `FwdFFTTo`.  math/poly/fft.go:13-18. -/
def fwdFFTTo (out : FLoc) (p : Vec) : M w F Unit := do
  check (p.len == E.N)
  let xs ← rdAll p
  wrF out (O.fwd xs)

/-- `InvFFTToUnsafe`.  math/poly/fft.go:169-175. -/
def invFFTToUnsafe (out : Vec) (fp : FLoc) : M w F Unit := do
  check (out.len == E.N)
  let x ← rdF fp
  wrF fp (O.invLeft x)
  forUp 0 E.N fun i => wr out i (O.inv x i)

/-- `InvFFTAddToUnsafe`.  math/poly/fft.go:181-187. -/
def invFFTAddToUnsafe (out : Vec) (fp : FLoc) : M w F Unit := do
  check (out.len == E.N)
  let x ← rdF fp
  wrF fp (O.invLeft x)
  forUp 0 E.N fun i => do
    let o ← rd out i
    wr out i (o + O.inv x i)

/-- `InvFFTSubToUnsafe`.  math/poly/fft.go:193-199. -/
def invFFTSubToUnsafe (out : Vec) (fp : FLoc) : M w F Unit := do
  check (out.len == E.N)
  let x ← rdF fp
  wrF fp (O.invLeft x)
  forUp 0 E.N fun i => do
    let o ← rd out i
    wr out i (o - O.inv x i)

/-- `MulFFTPolyTo`.  math/poly/fft_ops.go:115-119. -/
def mulFFTPolyTo (out f0 f1 : FLoc) : M w F Unit := do
  let x ← rdF f0
  let y ← rdF f1
  wrF out (O.mul x y)

/-- `MulAddFFTPolyTo`.  math/poly/fft_ops.go:122-126. -/
def mulAddFFTPolyTo (out f0 f1 : FLoc) : M w F Unit := do
  let o ← rdF out
  let x ← rdF f0
  let y ← rdF f1
  wrF out (O.mulAdd o x y)

/-- `SubFFTPolyTo`.  math/poly/fft_ops.go:31-35. -/
def subFFTPolyTo (out f0 f1 : FLoc) : M w F Unit := do
  let x ← rdF f0
  let y ← rdF f1
  wrF out (O.sub x y)

/-- `FFTPolyMulFFTGLWETo`.  tfhe/fft_glwe_ops.go:144-148. -/
def fftPolyMulFFTGLWETo (out ct : ℕ → FLoc) (fp : FLoc) : M w F Unit :=
  forUp 0 (E.k + 1) fun i => mulFFTPolyTo O (out i) (ct i) fp

/-- `FFTPolyMulAddFFTGLWETo`.  tfhe/fft_glwe_ops.go:151-155. -/
def fftPolyMulAddFFTGLWETo (out ct : ℕ → FLoc) (fp : FLoc) : M w F Unit :=
  forUp 0 (E.k + 1) fun i => mulAddFFTPolyTo O (out i) (ct i) fp

/-- `PolyMulFFTGLWETo`.  tfhe/fft_glwe_ops.go:113-118. -/
def polyMulFFTGLWETo (out ct : ℕ → FLoc) (p : Vec) : M w F Unit := do
  fwdFFTTo O E .fpMul p
  forUp 0 (E.k + 1) fun i => mulFFTPolyTo O (out i) (ct i) .fpMul

/-- `PolyMulAddFFTGLWETo`.  tfhe/fft_glwe_ops.go:121-126. -/
def polyMulAddFFTGLWETo (out ct : ℕ → FLoc) (p : Vec) : M w F Unit := do
  fwdFFTTo O E .fpMul p
  forUp 0 (E.k + 1) fun i => mulAddFFTPolyTo O (out i) (ct i) .fpMul

/-- `SubFFTGLWETo`.  tfhe/fft_glwe_ops.go:29-33. -/
def subFFTGLWETo (out ct0 ct1 : ℕ → FLoc) : M w F Unit :=
  forUp 0 (E.k + 1) fun i => subFFTPolyTo O (out i) (ct0 i) (ct1 i)

/-- `SubGLWETo`.  tfhe/glwe_ops.go:44-48. -/
def subGLWETo (out ct0 ct1 : List Vec) : M w F Unit :=
  forUp 0 (E.k + 1) fun i => do
    let o ← elem out i
    let x ← elem ct0 i
    let y ← elem ct1 i
    check (o.len == E.N)
    subTo o x y

/-- `MonomialMulPolyTo`; `monoMul d xs i` is coefficient `i` of the product.
math/poly/poly_ops.go:122-155. -/
def monomialMulPolyTo (out p : Vec) (d : ℤ) : M w F Unit := do
  check (out.len == E.N && p.len == E.N)
  let xs ← rdAll p
  forUp 0 E.N fun i => wr out i (O.monoMul d xs i)

/-! ### Key switching and products -/

/-- The buffer `ctProdLWE`.  tfhe/evaluator.go:128. -/
def prodLWE : Vec := ⟨.prodLWE, E.dim + 1⟩

/-- The buffer `ctCMux`.  tfhe/evaluator.go:130. -/
def ctCMux : List Vec := (List.range (E.k + 1)).map fun t => ⟨.cmux t, E.N⟩

/-- `KeySwitchLWETo`; `ksk i j` is the ciphertext `ksk.Value[i].Value[j]` and `nIn` the input dimension
of the key (at least 1).  tfhe/keyswitch.go:13-31. -/
def keySwitchLWETo (out ct : Vec) (g : GadgetParams w) (nIn : ℕ) (ksk : ℕ → ℕ → UVec) : M w F Unit := do
  let c ← scalarBuffer g
  decomposeScalarTo g c (← rd ct 1)
  scalarMulTo (prodLWE E) (ksk 0 0).vec (← rd c 0)
  forUp 1 g.level fun j => do scalarMulAddTo (prodLWE E) (ksk 0 j).vec (← rd c j)
  forUp 1 nIn fun i => do
    decomposeScalarTo g c (← rd ct (i + 1))
    forUp 0 g.level fun j => do scalarMulAddTo (prodLWE E) (ksk i j).vec (← rd c j)
  let x ← rd ct 0
  let y ← rd (prodLWE E) 0
  wr out 0 (x + y)
  copyTo ⟨fun i => out.cell (i + 1), out.len - 1⟩ ⟨fun i => (prodLWE E).cell (i + 1), E.dim⟩

/-- `FourierDecomposePolyTo`.  tfhe/decomposer.go:152-158. -/
def fourierDecomposePolyTo (g : GadgetParams w) (out : List FLoc) (p : Vec) : M w F Unit := do
  let d ← polyBuffer E.N g
  decomposePolyTo g d p
  forUp 0 g.level fun i => do fwdFFTTo O E (← elem out i) (← elem d i)

/-- `KeySwitchGLWETo`.  tfhe/keyswitch.go:43-64. -/
def keySwitchGLWETo (out ct : List Vec) (g : GadgetParams w) (kIn : ℕ) (ksk : ℕ → ℕ → ℕ → ℕ) : M w F Unit := do
  let fd ← fftPolyBuffer O g
  fourierDecomposePolyTo O E g fd (← elem ct 1)
  fftPolyMulFFTGLWETo O E .prod (fun t => .user (ksk 0 0 t)) (← elem fd 0)
  forUp 1 g.level fun j => do fftPolyMulAddFFTGLWETo O E .prod (fun t => .user (ksk 0 j t)) (← elem fd j)
  forUp 1 kIn fun i => do
    fourierDecomposePolyTo O E g fd (← elem ct (i + 1))
    forUp 0 g.level fun j => do fftPolyMulAddFFTGLWETo O E .prod (fun t => .user (ksk i j t)) (← elem fd j)
  copyTo (← elem out 0) (← elem ct 0)
  invFFTAddToUnsafe O E (← elem out 0) (.prod 0)
  forUp 0 E.k fun i => do invFFTToUnsafe O E (← elem out (i + 1)) (.prod (i + 1))

/-- Whether a product is assigned, added or subtracted: the variants `…To`, `…AddTo` and `…SubTo` of
tfhe/product.go:16-44. -/
inductive Mode where
  | set | add | sub

/-- `GadgetProdLWETo`, `GadgetProdAddLWETo` and `GadgetProdSubLWETo`.
tfhe/product.go:16-24, 27-34, 37-44. -/
def gadgetProdLWETo (mode : Mode) (out : Vec) (g : GadgetParams w) (lev : ℕ → UVec) (x : BitVec w) : M w F Unit := do
  let c ← scalarBuffer g
  decomposeScalarTo g c x
  match mode with
  | .set => do
    scalarMulTo out (lev 0).vec (← rd c 0)
    forUp 1 g.level fun i => do scalarMulAddTo out (lev i).vec (← rd c i)
  | .add => forUp 0 g.level fun i => do scalarMulAddTo out (lev i).vec (← rd c i)
  | .sub => forUp 0 g.level fun i => do scalarMulSubTo out (lev i).vec (← rd c i)

/-- The body of the last loop of the GLWE products.  tfhe/product.go:68-70, 88-90, 108-110. -/
def invFFTMode (mode : Mode) (out : Vec) (fp : FLoc) : M w F Unit := match mode with
  | .set => invFFTToUnsafe O E out fp
  | .add => invFFTAddToUnsafe O E out fp
  | .sub => invFFTSubToUnsafe O E out fp

/-- `GadgetProdGLWETo`, `GadgetProdAddGLWETo` and `GadgetProdSubGLWETo`.
tfhe/product.go:54-71, 74-91, 94-111. -/
def gadgetProdGLWETo (mode : Mode) (out : List Vec) (g : GadgetParams w) (lev : ℕ → ℕ → ℕ) (p : Vec) :
    M w F Unit := do
  let d ← polyBuffer E.N g
  let fd ← fftPolyBuffer O g
  decomposePolyTo g d p
  forUp 0 g.level fun i => do fwdFFTTo O E (← elem fd i) (← elem d i)
  fftPolyMulFFTGLWETo O E .prod (fun t => .user (lev 0 t)) (← elem fd 0)
  forUp 1 g.level fun i => do fftPolyMulAddFFTGLWETo O E .prod (fun t => .user (lev i t)) (← elem fd i)
  forUp 0 (E.k + 1) fun i => do invFFTMode O E mode (← elem out i) (.prod i)

/-- `ExternalProdLWETo`, `ExternalProdAddLWETo` and `ExternalProdSubLWETo`.
tfhe/product.go:143-160, 163-180, 183-200. -/
def externalProdLWETo (mode : Mode) (out : Vec) (g : GadgetParams w) (gsw : ℕ → ℕ → UVec) (ct : Vec) :
    M w F Unit := do
  let c ← scalarBuffer g
  decomposeScalarTo g c (← rd ct 0)
  scalarMulTo (prodLWE E) (gsw 0 0).vec (← rd c 0)
  forUp 1 g.level fun j => do scalarMulAddTo (prodLWE E) (gsw 0 j).vec (← rd c j)
  forUp 1 (E.dim + 1) fun i => do
    decomposeScalarTo g c (← rd ct i)
    forUp 0 g.level fun j => do scalarMulAddTo (prodLWE E) (gsw i j).vec (← rd c j)
  match mode with
  | .set => copyTo out (prodLWE E)
  | .add => addTo out out (prodLWE E)
  | .sub => subTo out out (prodLWE E)

/-- `ExternalProdGLWETo`, `ExternalProdAddGLWETo` and `ExternalProdSubGLWETo`.
tfhe/product.go:210-229, 232-251, 254-273. -/
def externalProdGLWETo (mode : Mode) (out : List Vec) (g : GadgetParams w) (gsw : ℕ → ℕ → ℕ → ℕ) (ct : List Vec) :
    M w F Unit := do
  let d ← polyBuffer E.N g
  decomposePolyTo g d (← elem ct 0)
  polyMulFFTGLWETo O E .prod (fun t => .user (gsw 0 0 t)) (← elem d 0)
  forUp 1 g.level fun j => do polyMulAddFFTGLWETo O E .prod (fun t => .user (gsw 0 j t)) (← elem d j)
  forUp 1 (E.k + 1) fun i => do
    decomposePolyTo g d (← elem ct i)
    forUp 0 g.level fun j => do polyMulAddFFTGLWETo O E .prod (fun t => .user (gsw i j t)) (← elem d j)
  forUp 0 (E.k + 1) fun i => do invFFTMode O E mode (← elem out i) (.prod i)

/-- `CMuxTo`.  tfhe/product.go:317-321. -/
def cmuxTo (out : List Vec) (g : GadgetParams w) (gsw : ℕ → ℕ → ℕ → ℕ) (ct0 ct1 : List Vec) : M w F Unit := do
  forUp 0 out.length fun i => do copyTo (← elem out i) (← elem ct0 i)
  subGLWETo E (ctCMux E) ct1 ct0
  externalProdGLWETo O E .add out g gsw (ctCMux E)

/-! ### Bootstrapping -/

/-- `GadgetProdFFTGLWETo`.  tfhe/product.go:114-119. -/
def gadgetProdFFTGLWETo (out : ℕ → FLoc) (g : GadgetParams w) (lev : ℕ → ℕ → ℕ) (d : ℕ → FLoc) : M w F Unit := do
  fftPolyMulFFTGLWETo O E out (fun t => .user (lev 0 t)) (d 0)
  forUp 1 g.level fun i => fftPolyMulAddFFTGLWETo O E out (fun t => .user (lev i t)) (d i)

/-- `ExternalProdFFTGLWETo`.  tfhe/product.go:276-287. -/
def externalProdFFTGLWETo (out : ℕ → FLoc) (g : GadgetParams w) (gsw : ℕ → ℕ → ℕ → ℕ) (d : ℕ → ℕ → FLoc) :
    M w F Unit := do
  fftPolyMulFFTGLWETo O E out (fun t => .user (gsw 0 0 t)) (d 0 0)
  forUp 1 g.level fun j => fftPolyMulAddFFTGLWETo O E out (fun t => .user (gsw 0 j t)) (d 0 j)
  forUp 1 (E.k + 1) fun i =>
    forUp 0 g.level fun j => fftPolyMulAddFFTGLWETo O E out (fun t => .user (gsw i j t)) (d i j)

/-- `ModSwitch`; the size of the tables is `f * N`.  tfhe/bootstrap.go:41-43. -/
def ms (x : BitVec w) : ℕ := modSwitch w (E.f * E.N) x

/-- Decomposition of a polynomial of the accumulator into `ctAccFFTDcmp[q][t]`.
tfhe/bootstrap.go:86-89, 153-156, 221-224, 278-281, 298-301, 329-332, 343-346. -/
def dcmpAcc (d : List Vec) (q t : ℕ) (p : Vec) : M w F Unit := do
  decomposePolyTo E.br d p
  forUp 0 E.br.level fun l => do fwdFFTTo O E (.accDcmp q t l) (← elem d l)

/-- The first rotation of the table.  tfhe/bootstrap.go:273-276, 324-327. -/
def rotInit (out : List Vec) (ct : Vec) (lut : List Vec) : M w F Unit := do
  monomialMulPolyTo O E (← elem out 0) (← elem lut 0) (-(ms E (← rd ct 0) : ℤ))
  forUp 1 (E.k + 1) fun i => do clear (← elem out i)

/-- Decomposition of the whole accumulator.  tfhe/bootstrap.go:297-302, 342-347. -/
def dcmpOut (d : List Vec) (out : List Vec) : M w F Unit :=
  forUp 0 (E.k + 1) fun j => do dcmpAcc O E d 0 j (← elem out j)

/-- Addition of the products to the accumulator.  tfhe/bootstrap.go:292-294, 313-315, 337-339, 353-355. -/
def accOut (out : List Vec) : M w F Unit :=
  forUp 0 (E.k + 1) fun j => do invFFTAddToUnsafe O E (← elem out j) (.fftAcc 0 j)

/-- `blindRotateOriginalTo`.  tfhe/bootstrap.go:321-357. -/
def blindRotateOriginalTo (out : List Vec) (ct : Vec) (lut : List Vec) : M w F Unit := do
  let d ← slicePoly E.N E.br.level
  rotInit O E out ct lut
  dcmpAcc O E d 0 0 (← elem out 0)
  gadgetProdFFTGLWETo O E (.blkAcc 0) E.br (E.brk 0 0) (.accDcmp 0 0)
  wrF .fMono (O.monoSubOne (-(ms E (← rd ct 1) : ℤ)))
  fftPolyMulFFTGLWETo O E (.fftAcc 0) (.blkAcc 0) .fMono
  accOut O E out
  forUp 1 E.n fun i => do
    dcmpOut O E d out
    externalProdFFTGLWETo O E (.blkAcc 0) E.br (E.brk i) (.accDcmp 0)
    wrF .fMono (O.monoSubOne (-(ms E (← rd ct (i + 1)) : ℤ)))
    fftPolyMulFFTGLWETo O E (.fftAcc 0) (.blkAcc 0) .fMono
    accOut O E out

/-- `blindRotateBlockTo`.  tfhe/bootstrap.go:270-317. -/
def blindRotateBlockTo (out : List Vec) (ct : Vec) (lut : List Vec) : M w F Unit := do
  let d ← slicePoly E.N E.br.level
  rotInit O E out ct lut
  dcmpAcc O E d 0 0 (← elem out 0)
  gadgetProdFFTGLWETo O E (.blkAcc 0) E.br (E.brk 0 0) (.accDcmp 0 0)
  wrF .fMono (O.monoSubOne (-(ms E (← rd ct 1) : ℤ)))
  fftPolyMulFFTGLWETo O E (.fftAcc 0) (.blkAcc 0) .fMono
  forUp 1 E.bs fun j => do
    gadgetProdFFTGLWETo O E (.blkAcc 0) E.br (E.brk j 0) (.accDcmp 0 0)
    wrF .fMono (O.monoSubOne (-(ms E (← rd ct (j + 1)) : ℤ)))
    fftPolyMulAddFFTGLWETo O E (.fftAcc 0) (.blkAcc 0) .fMono
  accOut O E out
  forUp 1 E.bc fun i => do
    dcmpOut O E d out
    externalProdFFTGLWETo O E (.blkAcc 0) E.br (E.brk (i * E.bs)) (.accDcmp 0)
    wrF .fMono (O.monoSubOne (-(ms E (← rd ct (i * E.bs + 1)) : ℤ)))
    fftPolyMulFFTGLWETo O E (.fftAcc 0) (.blkAcc 0) .fMono
    forUp (i * E.bs + 1) ((i + 1) * E.bs) fun j => do
      externalProdFFTGLWETo O E (.blkAcc 0) E.br (E.brk j) (.accDcmp 0)
      wrF .fMono (O.monoSubOne (-(ms E (← rd ct (j + 1)) : ℤ)))
      fftPolyMulAddFFTGLWETo O E (.fftAcc 0) (.blkAcc 0) .fMono
    accOut O E out

/-- `ctAcc[q].Value[t]`.  tfhe/evaluator.go:105-109. -/
def accPoly (q t : ℕ) : Vec := ⟨.acc q t, E.N⟩

/-- The rotation of the products of one key element into `ctFFTAcc`, when they are assigned.
tfhe/bootstrap.go:99-115, 167-183. -/
def extRotSet (a2N : ℕ) : M w F Unit :=
  let mono := a2N / E.f
  let idx := a2N % E.f
  if idx = 0 then do
    wrF .fMono (O.monoSubOne mono)
    forUp 0 E.f fun q => fftPolyMulFFTGLWETo O E (.fftAcc q) (.blkAcc q) .fMono
  else do
    wrF .fMono (O.mono (mono + 1))
    forUp 0 idx fun q => do
      fftPolyMulFFTGLWETo O E (.fftAcc q) (.blkAcc (E.f - idx + q)) .fMono
      subFFTGLWETo O E (.fftAcc q) (.fftAcc q) (.blkAcc q)
    wrF .fMono (O.mono mono)
    forUp idx E.f fun q => do
      fftPolyMulFFTGLWETo O E (.fftAcc q) (.blkAcc (q - idx)) .fMono
      subFFTGLWETo O E (.fftAcc q) (.fftAcc q) (.blkAcc q)

/-- The same, when they are added.  tfhe/bootstrap.go:125-141, 193-209. -/
def extRotAdd (a2N : ℕ) : M w F Unit :=
  let mono := a2N / E.f
  let idx := a2N % E.f
  if idx = 0 then do
    wrF .fMono (O.monoSubOne mono)
    forUp 0 E.f fun q => fftPolyMulAddFFTGLWETo O E (.fftAcc q) (.blkAcc q) .fMono
  else do
    wrF .fMono (O.mono (mono + 1))
    forUp 0 idx fun q => do
      fftPolyMulAddFFTGLWETo O E (.fftAcc q) (.blkAcc (E.f - idx + q)) .fMono
      subFFTGLWETo O E (.fftAcc q) (.fftAcc q) (.blkAcc q)
    wrF .fMono (O.mono mono)
    forUp idx E.f fun q => do
      fftPolyMulAddFFTGLWETo O E (.fftAcc q) (.blkAcc (q - idx)) .fMono
      subFFTGLWETo O E (.fftAcc q) (.fftAcc q) (.blkAcc q)

/-- Conversion of the accumulators back, `tfhe/bootstrap.go:144-148, 212-216`. -/
def extInv : M w F Unit :=
  forUp 0 E.f fun q => forUp 0 (E.k + 1) fun t => invFFTAddToUnsafe O E (accPoly E q t) (.fftAcc q t)

/-- Decomposition of all accumulators, `tfhe/bootstrap.go:151-158, 219-226`. -/
def extDcmp (d : List Vec) : M w F Unit :=
  forUp 0 E.f fun q => forUp 0 (E.k + 1) fun t => dcmpAcc O E d q t (accPoly E q t)

/-- The last block, where only the first accumulator is needed; `first` is whether the result is
assigned or added.  tfhe/bootstrap.go:228-242 (assigned), 245-259 (added). -/
def extLast (first : Bool) (j a2N : ℕ) : M w F Unit :=
  let mono := a2N / E.f
  let idx := a2N % E.f
  if idx = 0 then do
    externalProdFFTGLWETo O E (.blkAcc 0) E.br (E.brk j) (.accDcmp 0)
    wrF .fMono (O.monoSubOne mono)
    if first then fftPolyMulFFTGLWETo O E (.fftAcc 0) (.blkAcc 0) .fMono
    else fftPolyMulAddFFTGLWETo O E (.fftAcc 0) (.blkAcc 0) .fMono
  else do
    externalProdFFTGLWETo O E (.blkAcc 0) E.br (E.brk j) (.accDcmp 0)
    externalProdFFTGLWETo O E (.blkAcc (E.f - idx)) E.br (E.brk j) (.accDcmp (E.f - idx))
    wrF .fMono (O.mono (mono + 1))
    if first then fftPolyMulFFTGLWETo O E (.fftAcc 0) (.blkAcc (E.f - idx)) .fMono
    else fftPolyMulAddFFTGLWETo O E (.fftAcc 0) (.blkAcc (E.f - idx)) .fMono
    subFFTGLWETo O E (.fftAcc 0) (.fftAcc 0) (.blkAcc 0)

/-- `2*LUTSize - ModSwitch(x)`.  tfhe/bootstrap.go:69, 92, 118, 160, 186, 228, 245. -/
def a2N (x : BitVec w) : ℕ := 2 * (E.f * E.N) - ms E x

/-- `blindRotateExtendedTo`.  tfhe/bootstrap.go:66-266. -/
def blindRotateExtendedTo (out : List Vec) (ct : Vec) (lut : List Vec) : M w F Unit := do
  let d ← slicePoly E.N E.br.level
  let b2N := a2N E (← rd ct 0)
  forUp 0 (b2N % E.f) fun i => do
    monomialMulPolyTo O E (accPoly E (E.f - b2N % E.f + i) 0) (← elem lut i) (b2N / E.f + 1 : ℕ)
  forUp (b2N % E.f) E.f fun i => do
    monomialMulPolyTo O E (accPoly E (i - b2N % E.f) 0) (← elem lut i) (b2N / E.f : ℕ)
  forUp 0 E.f fun i => forUp 1 (E.k + 1) fun j => clear (accPoly E i j)
  forUp 0 E.f fun j => dcmpAcc O E d j 0 (accPoly E j 0)
  let x ← rd ct 1
  forUp 0 E.f fun q => gadgetProdFFTGLWETo O E (.blkAcc q) E.br (E.brk 0 0) (.accDcmp q 0)
  extRotSet O E (a2N E x)
  forUp 1 E.bs fun j => do
    let x ← rd ct (j + 1)
    forUp 0 E.f fun q => gadgetProdFFTGLWETo O E (.blkAcc q) E.br (E.brk j 0) (.accDcmp q 0)
    extRotAdd O E (a2N E x)
  extInv O E
  forUp 1 (E.bc - 1) fun i => do
    extDcmp O E d
    let x ← rd ct (i * E.bs + 1)
    forUp 0 E.f fun q => externalProdFFTGLWETo O E (.blkAcc q) E.br (E.brk (i * E.bs)) (.accDcmp q)
    extRotSet O E (a2N E x)
    forUp (i * E.bs + 1) ((i + 1) * E.bs) fun j => do
      let x ← rd ct (j + 1)
      forUp 0 E.f fun q => externalProdFFTGLWETo O E (.blkAcc q) E.br (E.brk j) (.accDcmp q)
      extRotAdd O E (a2N E x)
    extInv O E
  extDcmp O E d
  extLast O E true (E.n - E.bs) (a2N E (← rd ct (E.n - E.bs + 1)))
  forUp (E.n - E.bs + 1) E.n fun j => do extLast O E false j (a2N E (← rd ct (j + 1)))
  forUp 0 (E.k + 1) fun t => do
    invFFTAddToUnsafe O E (accPoly E 0 t) (.fftAcc 0 t)
    copyTo (← elem out t) (accPoly E 0 t)

/-- `BlindRotateTo`; `LUTSize > PolyRank` is `f > 1`.  tfhe/bootstrap.go:53-62. -/
def blindRotateTo (out : List Vec) (ct : Vec) (lut : List Vec) : M w F Unit :=
  if 1 < E.f then blindRotateExtendedTo O E out ct lut
  else if 1 < E.bs then blindRotateBlockTo O E out ct lut
  else blindRotateOriginalTo O E out ct lut

/-- `DefaultKeySwitchTo`; the GLWE dimension is `k * N`.  tfhe/bootstrap.go:371-381. -/
def defaultKeySwitchTo (out ct : Vec) : M w F Unit := do
  let c ← sliceScalar E.ks.level
  check (decide (E.n + 1 ≤ ct.len))
  copyTo out ⟨ct.cell, E.n + 1⟩
  forUp E.n (E.k * E.N) fun i => do
    decomposeScalarTo E.ks c (← rd ct (i + 1))
    forUp 0 E.ks.level fun j => do scalarMulAddTo out (E.ksk (i - E.n) j).vec (← rd c j)

/-- The buffer `ctRotate`.  tfhe/evaluator.go:138. -/
def ctRotate : List Vec := (List.range (E.k + 1)).map fun t => ⟨.rotate t, E.N⟩

/-- `ctRotate.AsLWECiphertextTo(0, ctOut)`.  tfhe/glwe.go:212-223. -/
def extractTo (ct : List Vec) (out : Vec) : M w F Unit := do
  wr out 0 (← rd (← elem ct 0) 0)
  forUp 0 (ct.length - 1) fun i => do
    let p ← elem ct (i + 1)
    wr out (1 + i * p.len) (← rd p 0)
    forUp 1 p.len fun j => do
      let x ← rd p (p.len - j)
      wr out (1 + i * p.len + j) (-x)

/-- `BootstrapLUTTo`.  tfhe/bootstrap.go:27-38. -/
def bootstrapLUTTo (out ct : Vec) (lut : List Vec) : M w F Unit := match E.order with
  | .ksBr => do
    defaultKeySwitchTo E ⟨.keySwitch, E.n + 1⟩ ct
    blindRotateTo O E (ctRotate E) ⟨.keySwitch, E.n + 1⟩ lut
    extractTo (ctRotate E) out
  | .brKs => do
    blindRotateTo O E (ctRotate E) ct lut
    extractTo (ctRotate E) ⟨.extract, E.k * E.N + 1⟩
    defaultKeySwitchTo E out ⟨.extract, E.k * E.N + 1⟩

/-- The new contents of `lutRaw` and the copy to the table.  tfhe/bootstrap_lut.go:127-131. -/
def genLUTWrite (out : List Vec) (xs : List (BitVec w)) : M w F Unit := do
  forUp 0 (E.f * E.N) fun i => do
    let x ← elem xs i
    wr ⟨.lutRaw, E.f * E.N⟩ i x
  forUp 0 E.f fun i => forUp 0 E.N fun j => do
    let o ← elem out i
    let x ← rd ⟨.lutRaw, E.f * E.N⟩ (j * E.f + i)
    wr o j x

/-- `GenLUTCustomFullTo`; what the loops leave in `lutRaw` is `genLUTRaw`, which starts from the old
contents.  tfhe/bootstrap_lut.go:111-132. -/
def genLUTFullTo (out : List Vec) (p : ℕ) (fn : ℕ → BitVec w) : M w F Unit := do
  let old ← rdAll ⟨.lutRaw, E.f * E.N⟩
  match genLUTRaw w (E.f * E.N) p fn old with
  | none => panic
  | some xs => genLUTWrite E out xs

/-- The buffer `lut`.  tfhe/evaluator.go:142. -/
def lutBuf : List Vec := (List.range E.f).map fun q => ⟨.lut q, E.N⟩

/-- `BootstrapFuncTo`.  tfhe/bootstrap.go:14-17, tfhe/bootstrap_lut.go:69-71, 97-99. -/
def bootstrapFuncTo (out ct : Vec) (fn : ℕ → BitVec 64) : M w F Unit := do
  genLUTFullTo E (lutBuf E) E.modulus.toNat (fun x => encodeLWECustom (fn x) E.modulus E.scale)
  bootstrapLUTTo O E out ct (lutBuf E)

/-- Calls of the API: every ciphertext, key and table is memory of the caller. -/
inductive Call (w : ℕ) where
  | decomposeScalar (g : GadgetParams w) (out : UVec) (x : BitVec w)
  | decomposePoly (g : GadgetParams w) (out : List UVec) (p : UVec)
  | keySwitchLWE (out ct : UVec) (g : GadgetParams w) (nIn : ℕ) (ksk : ℕ → ℕ → UVec)
  | keySwitchGLWE (out ct : List UVec) (g : GadgetParams w) (kIn : ℕ) (ksk : ℕ → ℕ → ℕ → ℕ)
  | gadgetProdLWE (mode : Mode) (out : UVec) (g : GadgetParams w) (lev : ℕ → UVec) (x : BitVec w)
  | gadgetProdGLWE (mode : Mode) (out : List UVec) (g : GadgetParams w) (lev : ℕ → ℕ → ℕ) (p : UVec)
  | externalProdLWE (mode : Mode) (out : UVec) (g : GadgetParams w) (gsw : ℕ → ℕ → UVec) (ct : UVec)
  | externalProdGLWE (mode : Mode) (out : List UVec) (g : GadgetParams w) (gsw : ℕ → ℕ → ℕ → ℕ) (ct : List UVec)
  | cmux (out : List UVec) (g : GadgetParams w) (gsw : ℕ → ℕ → ℕ → ℕ) (ct0 ct1 : List UVec)
  | fourierDecompose (g : GadgetParams w) (out : List ℕ) (p : UVec)
  | blindRotate (out : List UVec) (ct : UVec) (lut : List UVec)
  | defaultKeySwitch (out ct : UVec)
  | bootstrapLUT (out ct : UVec) (lut : List UVec)
  | genLUT (out : List UVec) (p : ℕ) (fn : ℕ → BitVec w)
  | bootstrapFunc (out ct : UVec) (fn : ℕ → BitVec 64)

/-- What a call does. -/
def Call.run : Call w → M w F Unit
  | .decomposeScalar g out x => decomposeScalarTo g out.vec x
  | .decomposePoly g out p => decomposePolyTo g (out.map UVec.vec) p.vec
  | .keySwitchLWE out ct g nIn ksk => keySwitchLWETo E out.vec ct.vec g nIn ksk
  | .keySwitchGLWE out ct g kIn ksk => keySwitchGLWETo O E (out.map UVec.vec) (ct.map UVec.vec) g kIn ksk
  | .gadgetProdLWE mode out g lev x => gadgetProdLWETo mode out.vec g lev x
  | .gadgetProdGLWE mode out g lev p => gadgetProdGLWETo O E mode (out.map UVec.vec) g lev p.vec
  | .externalProdLWE mode out g gsw ct => externalProdLWETo E mode out.vec g gsw ct.vec
  | .externalProdGLWE mode out g gsw ct => externalProdGLWETo O E mode (out.map UVec.vec) g gsw (ct.map UVec.vec)
  | .cmux out g gsw ct0 ct1 => cmuxTo O E (out.map UVec.vec) g gsw (ct0.map UVec.vec) (ct1.map UVec.vec)
  | .fourierDecompose g out p => fourierDecomposePolyTo O E g (out.map FLoc.user) p.vec
  | .blindRotate out ct lut => blindRotateTo O E (out.map UVec.vec) ct.vec (lut.map UVec.vec)
  | .defaultKeySwitch out ct => defaultKeySwitchTo E out.vec ct.vec
  | .bootstrapLUT out ct lut => bootstrapLUTTo O E out.vec ct.vec (lut.map UVec.vec)
  | .genLUT out p fn => genLUTFullTo E (out.map UVec.vec) p fn
  | .bootstrapFunc out ct fn => bootstrapFuncTo O E out.vec ct.vec fn

/-- The memory after `NewEvaluator`: buffers of zeros, those of the decomposer sized for the parameters.
tfhe/evaluator.go:80-101, 104-145. -/
def newEvaluator (uw : ℕ → BitVec w) (uf : ℕ → F) : Option (Mem w F) :=
  let m : Mem w F :=
    { wd := fun l => match l with
        | .user a => uw a
        | _ => 0
      ft := fun l => match l with
        | .user a => uf a
        | _ => O.zero
      cLen := 0, pLen := 0, fpLen := 0 }
  ((do
    let _ ← scalarBuffer E.ks
    let _ ← polyBuffer E.N E.br
    let _ ← fftPolyBuffer O E.br
    pure () : M w F Unit) m).map Prod.snd

end

end Tfhe.Scratch
