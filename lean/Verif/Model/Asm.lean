import Mathlib.Data.Fin.Basic
import Mathlib.Logic.Function.Basic

/-!
# The amd64 machine that the assembly of tfhe-go runs on

On amd64 with AVX2 the vector kernels of tfhe-go are written in Plan 9 assembly
(`math/vec/asm_vec_amd64.s`, `tfhe/asm_decompose_amd64.s`, `math/poly/asm_*_amd64.s`).  This file gives the
semantics of the instructions that occur there.  The programs are transcribed line by line in
`Model/AsmVec` and the files after it.

What is simplified:
* Memory is a partial map from byte addresses to 32-bit words.  Every access of the programs is to a whole
  number of 32-bit words.  An access at an address that is not a multiple of 4, or that is not mapped, is a
  fault.  Go aligns every slice of `uint32`, `uint64`, `float64` and slices at a multiple of 4.
* The frame (`x+off(FP)`) is a separate read-only list of 32-bit words.
* The flags are the operands of the last `CMPQ`.  Every other arithmetic instruction destroys them, and a
  conditional jump without flags is a fault.
* Instructions on float64 use an unspecified `Fpu`: nothing is assumed about the results here.
-/
namespace Tfhe
namespace Asm

/-- The general registers used by the programs. -/
inductive Reg
  | AX | CX | DX | BX | SI | DI | R8 | R9 | R10 | R11 | R12
  deriving DecidableEq

/-- The labels used by the programs.  Labels are local to a function. -/
inductive Label
  | loop_body | loop_end | leftover_loop_body | leftover_loop_end
  | N_loop_body | N_loop_end | level_loop_body | level_loop_end
  | first_loop_body | first_loop_end | m_loop_body | m_loop_end | i_loop_body | i_loop_end
  | j_loop_body | j_loop_end | last_loop_2_body | last_loop_2_end | last_loop_1_body | last_loop_1_end
  | first_loop_1_body | first_loop_1_end | first_loop_2_body | first_loop_2_end
  | last_loop_body | last_loop_end
  deriving DecidableEq

/-- A 256-bit register as eight 32-bit words, the lowest first.  The lower half is the X register. -/
abbrev Y := Fin 8 → BitVec 32

/-- Memory: the 32-bit word at a byte address; `none` is an address that is not mapped. -/
abbrev Memory := BitVec 64 → Option (BitVec 32)

/-- Operations on float64 bit patterns. -/
structure Fpu where
  /-- addition -/
  add : BitVec 64 → BitVec 64 → BitVec 64
  /-- subtraction -/
  sub : BitVec 64 → BitVec 64 → BitVec 64
  /-- multiplication -/
  mul : BitVec 64 → BitVec 64 → BitVec 64
  /-- `fma a b c` is `a * b + c` with one rounding. -/
  fma : BitVec 64 → BitVec 64 → BitVec 64 → BitVec 64
  /-- `fnma a b c` is `-(a * b) + c` with one rounding. -/
  fnma : BitVec 64 → BitVec 64 → BitVec 64 → BitVec 64
  /-- `fms a b c` is `a * b - c` with one rounding. -/
  fms : BitVec 64 → BitVec 64 → BitVec 64 → BitVec 64
  /-- round to the nearest integer, ties to even -/
  rne : BitVec 64 → BitVec 64
  /-- a signed 32-bit integer as a float64 -/
  ofI32 : BitVec 32 → BitVec 64
  /-- a float64 to a signed 32-bit integer -/
  toI32 : BitVec 64 → BitVec 32

/-- A machine state. -/
structure St where
  /-- index of the next line -/
  pc : Nat
  /-- general registers -/
  gpr : Reg → BitVec 64
  /-- vector registers -/
  ymm : Nat → Y
  /-- operands of the last comparison -/
  cmp : Option (BitVec 64 × BitVec 64)
  /-- memory -/
  mem : Memory
  /-- `RET` has been executed -/
  ret : Bool

/-- The 64-bit lane `k` of a vector register. -/
def qw (y : Y) (k : Fin 4) : BitVec 64 :=
  y ⟨2 * k.val + 1, by omega⟩ ++ y ⟨2 * k.val, by omega⟩

/-- The vector register with given 64-bit lanes. -/
def ofQ (f : Fin 4 → BitVec 64) : Y := fun l =>
  if l.val % 2 = 0 then (f ⟨l.val / 2, by omega⟩).setWidth 32
  else ((f ⟨l.val / 2, by omega⟩) >>> 32).setWidth 32

/-- Read `k` consecutive 32-bit words. -/
def loadN (k : Nat) (m : Memory) (a : BitVec 64) : Option (Fin k → BitVec 32) :=
  if h : ∀ l : Fin k, (a + BitVec.ofNat 64 (4 * l.val)).toNat % 4 = 0 ∧
      (m (a + BitVec.ofNat 64 (4 * l.val))).isSome then
    some fun l => (m (a + BitVec.ofNat 64 (4 * l.val))).get (h l).2
  else none

/-- Write `k` consecutive 32-bit words; all of them must be mapped. -/
def storeN (k : Nat) (m : Memory) (a : BitVec 64) (v : Fin k → BitVec 32) : Option Memory :=
  if ∀ l : Fin k, (a + BitVec.ofNat 64 (4 * l.val)).toNat % 4 = 0 ∧
      (m (a + BitVec.ofNat 64 (4 * l.val))).isSome then
    some ((List.finRange k).foldl
      (fun m l => Function.update m (a + BitVec.ofNat 64 (4 * l.val)) (some (v l))) m)
  else none

/-- A 64-bit value from two 32-bit words. -/
def join2 (v : Fin 2 → BitVec 32) : BitVec 64 := v 1 ++ v 0
/-- The two 32-bit words of a 64-bit value. -/
def split2 (v : BitVec 64) : Fin 2 → BitVec 32 := fun l =>
  if l = 0 then v.setWidth 32 else (v >>> 32).setWidth 32

/-- An address operand `disp(base)(idx*scale)`. -/
structure Addr where
  /-- base register -/
  base : Reg
  /-- index register, if any -/
  idx : Option Reg := none
  /-- scale of the index -/
  scale : BitVec 64 := 1
  /-- displacement -/
  disp : BitVec 64 := 0

/-- Vector instructions with two vector sources. -/
inductive VOp
  | VPADDD | VPSUBD | VPMULLD | VPMULUDQ | VPADDQ | VPSUBQ | VPAND | VANDPD | VORPD | VPXOR | VXORPD
  | VPSRLVD | VPSRLVQ | VADDPD | VSUBPD | VMULPD | VADDSUBPD | VHADDPD
  deriving DecidableEq

/-- Vector instructions with one vector source and an immediate. -/
inductive VImm
  | VPSLLD | VPSRLD | VPSLLQ | VPSRLQ | VPSHUFD
  deriving DecidableEq

/-- Vector instructions with two vector sources whose destination is also a source. -/
inductive VFma
  | VFMADD231PD | VFNMADD231PD | VFMADDSUB231PD
  deriving DecidableEq

/-- One line of a program.  Operands are in the order of the Go assembler: sources first. -/
inductive Ins
  /-- a label -/
  | lab (l : Label)
  /-- `MOVQ x+off(FP), r` -/
  | movqArg (off : Nat) (r : Reg)
  /-- `MOVL x+off(FP), r` -/
  | movlArg (off : Nat) (r : Reg)
  /-- `MOVQ s, d` -/
  | movq (s d : Reg)
  /-- `MOVQ $imm, d` -/
  | movqImm (imm : BitVec 64) (d : Reg)
  /-- `MOVQ mem, d` -/
  | movqLoad (a : Addr) (d : Reg)
  /-- `MOVL mem, d` -/
  | movlLoad (a : Addr) (d : Reg)
  /-- `MOVQ s, mem` -/
  | movqStore (s : Reg) (a : Addr)
  /-- `MOVL s, mem` -/
  | movlStore (s : Reg) (a : Addr)
  /-- `SHRQ $imm, d` -/
  | shrq (imm : Nat) (d : Reg)
  /-- `SHLQ $imm, d` -/
  | shlq (imm : Nat) (d : Reg)
  /-- `XORQ s, d` -/
  | xorq (s d : Reg)
  /-- `ADDQ $imm, d` -/
  | addqImm (imm : BitVec 64) (d : Reg)
  /-- `SUBQ $imm, d` -/
  | subqImm (imm : BitVec 64) (d : Reg)
  /-- `ADDQ s, d` -/
  | addq (s d : Reg)
  /-- `SUBQ s, d` -/
  | subq (s d : Reg)
  /-- `IMULQ s, d` -/
  | imulq (s d : Reg)
  /-- `ADDL s, d` -/
  | addl (s d : Reg)
  /-- `SUBL s, d` -/
  | subl (s d : Reg)
  /-- `IMULL s, d` -/
  | imull (s d : Reg)
  /-- `CMPQ a, b` -/
  | cmpq (a b : Reg)
  /-- `CMPQ a, $imm` -/
  | cmpqImm (a : Reg) (imm : BitVec 64)
  /-- `JMP l` -/
  | jmp (l : Label)
  /-- `JL l` -/
  | jl (l : Label)
  /-- `JLE l` -/
  | jle (l : Label)
  /-- `JGE l` -/
  | jge (l : Label)
  /-- `RET` -/
  | ret
  /-- `VMOVDQU mem, Y` and `VMOVUPD mem, Y` -/
  | vload (a : Addr) (d : Nat)
  /-- `VMOVDQU Y, mem` and `VMOVUPD Y, mem` -/
  | vstore (s : Nat) (a : Addr)
  /-- `VMOVDQU mem, X` and `VMOVUPD mem, X` -/
  | vloadX (a : Addr) (d : Nat)
  /-- `VMOVDQU X, mem` and `VMOVUPD X, mem` -/
  | vstoreX (s : Nat) (a : Addr)
  /-- `VPBROADCASTD x+off(FP), Y` -/
  | vbcastdArg (off : Nat) (d : Nat)
  /-- `VPBROADCASTQ x+off(FP), Y` and `VBROADCASTSD x+off(FP), Y` -/
  | vbcastqArg (off : Nat) (d : Nat)
  /-- `VPBROADCASTD c<>+0(SB), Y` with the value of the static word -/
  | vbcastdConst (c : BitVec 32) (d : Nat)
  /-- `VPBROADCASTQ c<>+0(SB), Y` and `VBROADCASTSD c<>+0(SB), Y` with the value of the static word -/
  | vbcastqConst (c : BitVec 64) (d : Nat)
  /-- `VBROADCASTSD mem, Y` -/
  | vbcastqLoad (a : Addr) (d : Nat)
  /-- `OP s1, s2, d` -/
  | v (op : VOp) (s1 s2 d : Nat)
  /-- `OP s1, s2, d` on X registers -/
  | vx (op : VOp) (s1 s2 d : Nat)
  /-- `OP $imm, s, d` -/
  | vimm (op : VImm) (imm : Nat) (s d : Nat)
  /-- `OP s1, s2, d` where `d` is read too -/
  | vfma (op : VFma) (s1 s2 d : Nat)
  /-- `OP s1, s2, d` on X registers where `d` is read too -/
  | vfmax (op : VFma) (s1 s2 d : Nat)
  /-- `VSHUFPD $imm, s1, s2, d` -/
  | vshufpd (imm : Nat) (s1 s2 d : Nat)
  /-- `VSHUFPD $imm, s1, s2, d` on X registers -/
  | vshufpdX (imm : Nat) (s1 s2 d : Nat)
  /-- `VPBLENDD $imm, s1, s2, d` -/
  | vpblendd (imm : Nat) (s1 s2 d : Nat)
  /-- `VPBLENDVB mask, s1, s2, d` -/
  | vpblendvb (mask s1 s2 d : Nat)
  /-- `VROUNDPD $0, s, d` -/
  | vroundpd (s d : Nat)
  /-- `VCVTDQ2PD X, Y` -/
  | vcvtdq2pd (s d : Nat)
  /-- `VCVTPD2DQY Y, X` -/
  | vcvtpd2dqy (s d : Nat)

/-- A program: the lines of a function in order. -/
abbrev Prog := List Ins

/-- Whether a line is a given label. -/
def isLab (l : Label) : Ins → Bool
  | .lab l' => l = l'
  | _ => false

/-- The line a jump to `l` continues at. -/
def target (P : Prog) (l : Label) : Nat := P.findIdx (isLab l)

/-- Set a general register. -/
def St.set (s : St) (r : Reg) (x : BitVec 64) : St := { s with gpr := Function.update s.gpr r x }
/-- Set a vector register. -/
def St.setY (s : St) (d : Nat) (y : Y) : St := { s with ymm := Function.update s.ymm d y }
/-- Go to the next line. -/
def St.next (s : St) : St := { s with pc := s.pc + 1 }
/-- Forget the flags. -/
def St.noFlags (s : St) : St := { s with cmp := none }

/-- The effective address of an operand. -/
def ea (s : St) (a : Addr) : BitVec 64 :=
  match a.idx with
  | none => s.gpr a.base + a.disp
  | some i => s.gpr a.base + s.gpr i * a.scale + a.disp

/-- A 32-bit word of the frame; `none` outside the frame. -/
def arg32 (fp : List (BitVec 32)) (off : Nat) : Option (BitVec 32) :=
  if off % 4 = 0 then fp[off / 4]? else none

/-- A 64-bit word of the frame. -/
def arg64 (fp : List (BitVec 32)) (off : Nat) : Option (BitVec 64) :=
  match arg32 fp off, arg32 fp (off + 4) with
  | some lo, some hi => some (hi ++ lo)
  | _, _ => none

/-- Apply an operation to each 64-bit lane. -/
def mapQ (f : BitVec 64 → BitVec 64 → BitVec 64) (a b : Y) : Y := ofQ fun k => f (qw a k) (qw b k)

/-- The result of `OP s1, s2, d` from the values of `s1` and `s2` (Go order: for `VPSUBD` it is `s2 - s1`,
for the variable shifts `s1` is the count). -/
def VOp.eval (F : Fpu) : VOp → Y → Y → Y
  | .VPADDD, a, b => fun l => b l + a l
  | .VPSUBD, a, b => fun l => b l - a l
  | .VPMULLD, a, b => fun l => b l * a l
  | .VPMULUDQ, a, b => mapQ (fun a b => b.setWidth 32 |>.setWidth 64 |> (· * (a.setWidth 32).setWidth 64)) a b
  | .VPADDQ, a, b => mapQ (fun a b => b + a) a b
  | .VPSUBQ, a, b => mapQ (fun a b => b - a) a b
  | .VPAND, a, b => fun l => b l &&& a l
  | .VANDPD, a, b => fun l => b l &&& a l
  | .VORPD, a, b => fun l => b l ||| a l
  | .VPXOR, a, b => fun l => b l ^^^ a l
  | .VXORPD, a, b => fun l => b l ^^^ a l
  | .VPSRLVD, a, b => fun l => b l >>> (a l).toNat
  | .VPSRLVQ, a, b => mapQ (fun a b => b >>> a.toNat) a b
  | .VADDPD, a, b => mapQ (fun a b => F.add b a) a b
  | .VSUBPD, a, b => mapQ (fun a b => F.sub b a) a b
  | .VMULPD, a, b => mapQ (fun a b => F.mul b a) a b
  | .VADDSUBPD, a, b => ofQ fun k =>
      if k.val % 2 = 0 then F.sub (qw b k) (qw a k) else F.add (qw b k) (qw a k)
  | .VHADDPD, a, b => ofQ fun k =>
      match k with
      | 0 => F.add (qw b 0) (qw b 1)
      | 1 => F.add (qw a 0) (qw a 1)
      | 2 => F.add (qw b 2) (qw b 3)
      | 3 => F.add (qw a 2) (qw a 3)

/-- The result of `OP $imm, s, d`. -/
def VImm.eval : VImm → Nat → Y → Y
  | .VPSLLD, n, a => fun l => a l <<< n
  | .VPSRLD, n, a => fun l => a l >>> n
  | .VPSLLQ, n, a => ofQ fun k => qw a k <<< n
  | .VPSRLQ, n, a => ofQ fun k => qw a k >>> n
  | .VPSHUFD, n, a => fun l =>
      a ⟨4 * (l.val / 4) + n / 4 ^ (l.val % 4) % 4, by omega⟩

/-- The result of a fused multiply-add, from the values of `s1`, `s2` and the old value of `d`. -/
def VFma.eval (F : Fpu) : VFma → Y → Y → Y → Y
  | .VFMADD231PD, a, b, d => ofQ fun k => F.fma (qw b k) (qw a k) (qw d k)
  | .VFNMADD231PD, a, b, d => ofQ fun k => F.fnma (qw b k) (qw a k) (qw d k)
  | .VFMADDSUB231PD, a, b, d => ofQ fun k =>
      if k.val % 2 = 0 then F.fms (qw b k) (qw a k) (qw d k) else F.fma (qw b k) (qw a k) (qw d k)

/-- `VSHUFPD $imm, s1, s2, d`: even lanes come from `s2`, odd lanes from `s1`; bit `k` of the immediate
selects the upper lane of the 128-bit half. -/
def shufpd (imm : Nat) (a b : Y) : Y := ofQ fun k =>
  qw (if k.val % 2 = 0 then b else a) ⟨2 * (k.val / 2) + imm / 2 ^ k.val % 2, by omega⟩

/-- Clear the upper half, as VEX-encoded instructions on X registers do. -/
def lowX (y : Y) : Y := fun l => if l.val < 4 then y l else 0

/-- `VPBLENDVB mask, s1, s2, d`: each byte comes from `s1` when the top bit of the mask byte is set, otherwise from `s2`. -/
def blendvb (mk a b : Y) : Y := ofQ fun k =>
  let bytes : BitVec 64 := (List.range 8).foldl
    (fun r i => if (qw mk k).getLsbD (8 * i + 7) then r ||| ((255#64) <<< (8 * i)) else r) 0
  (qw a k &&& bytes) ||| (qw b k &&& ~~~ bytes)

/-- Execute one instruction; `none` is a fault. -/
def exec (F : Fpu) (P : Prog) (fp : List (BitVec 32)) (s : St) : Ins → Option St
  | .lab _ => some s.next
  | .movqArg off r => (arg64 fp off).map fun x => (s.set r x).next
  | .movlArg off r => (arg32 fp off).map fun x => (s.set r (x.setWidth 64)).next
  | .movq a d => some (s.set d (s.gpr a)).next
  | .movqImm c d => some (s.set d c).next
  | .movqLoad a d => (loadN 2 s.mem (ea s a)).map fun x => (s.set d (join2 x)).next
  | .movlLoad a d => (loadN 1 s.mem (ea s a)).map fun x => (s.set d ((x 0).setWidth 64)).next
  | .movqStore r a => (storeN 2 s.mem (ea s a) (split2 (s.gpr r))).map fun m => { s with mem := m }.next
  | .movlStore r a =>
      (storeN 1 s.mem (ea s a) (fun _ => (s.gpr r).setWidth 32)).map fun m => { s with mem := m }.next
  | .shrq n d => some (s.set d (s.gpr d >>> n)).noFlags.next
  | .shlq n d => some (s.set d (s.gpr d <<< n)).noFlags.next
  | .xorq a d => some (s.set d (s.gpr d ^^^ s.gpr a)).noFlags.next
  | .addqImm c d => some (s.set d (s.gpr d + c)).noFlags.next
  | .subqImm c d => some (s.set d (s.gpr d - c)).noFlags.next
  | .addq a d => some (s.set d (s.gpr d + s.gpr a)).noFlags.next
  | .subq a d => some (s.set d (s.gpr d - s.gpr a)).noFlags.next
  | .imulq a d => some (s.set d (s.gpr d * s.gpr a)).noFlags.next
  | .addl a d =>
      some (s.set d (((s.gpr d).setWidth 32 + (s.gpr a).setWidth 32).setWidth 64)).noFlags.next
  | .subl a d =>
      some (s.set d (((s.gpr d).setWidth 32 - (s.gpr a).setWidth 32).setWidth 64)).noFlags.next
  | .imull a d =>
      some (s.set d (((s.gpr d).setWidth 32 * (s.gpr a).setWidth 32).setWidth 64)).noFlags.next
  | .cmpq a b => some { s with cmp := some (s.gpr a, s.gpr b) }.next
  | .cmpqImm a c => some { s with cmp := some (s.gpr a, c) }.next
  | .jmp l => some { s with pc := target P l }
  | .jl l => s.cmp.map fun c => if c.1.slt c.2 then { s with pc := target P l } else s.next
  | .jle l => s.cmp.map fun c => if c.1.sle c.2 then { s with pc := target P l } else s.next
  | .jge l => s.cmp.map fun c => if c.2.sle c.1 then { s with pc := target P l } else s.next
  | .ret => some { s with ret := true }
  | .vload a d => (loadN 8 s.mem (ea s a)).map fun y => (s.setY d y).next
  | .vstore r a => (storeN 8 s.mem (ea s a) (s.ymm r)).map fun m => { s with mem := m }.next
  | .vloadX a d => (loadN 4 s.mem (ea s a)).map fun x =>
      (s.setY d (fun l => if h : l.val < 4 then x ⟨l.val, h⟩ else 0)).next
  | .vstoreX r a =>
      (storeN 4 s.mem (ea s a) (fun l => s.ymm r ⟨l.val, by omega⟩)).map fun m => { s with mem := m }.next
  | .vbcastdArg off d => (arg32 fp off).map fun x => (s.setY d (fun _ => x)).next
  | .vbcastqArg off d => (arg64 fp off).map fun x => (s.setY d (ofQ fun _ => x)).next
  | .vbcastdConst c d => some (s.setY d (fun _ => c)).next
  | .vbcastqConst c d => some (s.setY d (ofQ fun _ => c)).next
  | .vbcastqLoad a d => (loadN 2 s.mem (ea s a)).map fun x => (s.setY d (ofQ fun _ => join2 x)).next
  | .v op s1 s2 d => some (s.setY d (op.eval F (s.ymm s1) (s.ymm s2))).next
  | .vx op s1 s2 d => some (s.setY d (lowX (op.eval F (s.ymm s1) (s.ymm s2)))).next
  | .vimm op n a d => some (s.setY d (op.eval n (s.ymm a))).next
  | .vfma op s1 s2 d => some (s.setY d (op.eval F (s.ymm s1) (s.ymm s2) (s.ymm d))).next
  | .vfmax op s1 s2 d => some (s.setY d (lowX (op.eval F (s.ymm s1) (s.ymm s2) (s.ymm d)))).next
  | .vshufpd n s1 s2 d => some (s.setY d (shufpd n (s.ymm s1) (s.ymm s2))).next
  | .vshufpdX n s1 s2 d => some (s.setY d (lowX (shufpd n (s.ymm s1) (s.ymm s2)))).next
  | .vpblendd n s1 s2 d =>
      some (s.setY d (fun l => if n / 2 ^ l.val % 2 = 1 then s.ymm s1 l else s.ymm s2 l)).next
  | .vpblendvb mk s1 s2 d => some (s.setY d (blendvb (s.ymm mk) (s.ymm s1) (s.ymm s2))).next
  | .vroundpd a d => some (s.setY d (ofQ fun k => F.rne (qw (s.ymm a) k))).next
  | .vcvtdq2pd a d => some (s.setY d (ofQ fun k => F.ofI32 (s.ymm a ⟨k.val, by omega⟩))).next
  | .vcvtpd2dqy a d =>
      some (s.setY d (fun l => if h : l.val < 4 then F.toI32 (qw (s.ymm a) ⟨l.val, h⟩) else 0)).next

/-- Execute the next line.  After `RET` nothing changes; running past the end is a fault. -/
def step (F : Fpu) (P : Prog) (fp : List (BitVec 32)) (s : St) : Option St :=
  if s.ret then some s else (P[s.pc]?).bind (exec F P fp s)

/-- Execute `n` lines. -/
def steps (F : Fpu) (P : Prog) (fp : List (BitVec 32)) : Nat → St → Option St
  | 0, s => some s
  | n + 1, s => (step F P fp s).bind (steps F P fp n)

/-- The state on entry to a function: registers and memory are arbitrary. -/
def entry (g : Reg → BitVec 64) (y : Nat → Y) (m : Memory) : St := ⟨0, g, y, none, m, false⟩

/-- The call returns, without a fault, and leaves memory `m'`. -/
def Returns (F : Fpu) (P : Prog) (fp : List (BitVec 32)) (s : St) (m' : Memory) : Prop :=
  ∃ n t, steps F P fp n s = some t ∧ t.ret = true ∧ t.mem = m'

/-- A 64-bit argument in the frame. -/
def word64 (x : BitVec 64) : List (BitVec 32) := [x.setWidth 32, (x >>> 32).setWidth 32]

/-- A slice argument in the frame: base, length, capacity. -/
def sliceArg (base : BitVec 64) (len cap : Nat) : List (BitVec 32) :=
  word64 base ++ word64 (BitVec.ofNat 64 len) ++ word64 (BitVec.ofNat 64 cap)

end Asm
end Tfhe
