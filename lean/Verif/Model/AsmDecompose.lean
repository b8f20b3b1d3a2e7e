import Verif.Model.AsmVecGo
import Verif.Model.Gadget

/-!
# The programs of `tfhe/asm_decompose_amd64.s`, and the Go function that calls them

The programs are transcribed line by line.  The static word `ONE` (tfhe/asm_decompose_amd64.s:7-8) is written as
its value.
-/
namespace Tfhe
namespace Asm

/-- `decomposePolyToUint32AVX2`. tfhe/asm_decompose_amd64.s:12-68. -/
def decomposePolyToUint32AVX2 : Prog :=
  [.movqArg 0 .AX, .movqArg 24 .CX, .movqArg 32 .DX, .movqArg 8 .BX, .vbcastdArg 48 0, .vbcastdArg 52 1,
   .vbcastdArg 56 2, .vbcastdConst 0x0000000000000001 3, .v .VPSUBD 3 0 4, .vimm .VPSRLD 1 0 0,
   .v .VPSUBD 3 1 5, .xorq .SI .SI, .jmp .N_loop_end,
   .lab .N_loop_body, .vload ⟨.CX, some .SI, 4, 0⟩ 6, .v .VPSRLVD 2 6 7, .vimm .VPSLLD 1 6 6,
   .v .VPSRLVD 2 6 6, .v .VANDPD 3 6 6, .v .VPADDD 6 7 6, .movq .BX .DI, .subqImm 1 .DI, .movq .DI .R8,
   .addq .DI .R8, .addq .DI .R8, .jmp .level_loop_end,
   .lab .level_loop_body, .v .VANDPD 4 6 7, .v .VPSRLVD 1 6 6, .v .VPSRLVD 5 7 8, .v .VPADDD 8 6 6,
   .v .VANDPD 0 7 8, .vimm .VPSLLD 1 8 8, .v .VPSUBD 8 7 7, .movqLoad ⟨.AX, some .R8, 8, 0⟩ .R9,
   .vstore 7 ⟨.R9, some .SI, 4, 0⟩, .subqImm 1 .DI, .subqImm 3 .R8,
   .lab .level_loop_end, .cmpqImm .DI 1, .jge .level_loop_body, .v .VANDPD 4 6 6, .v .VANDPD 0 6 7,
   .vimm .VPSLLD 1 7 7, .v .VPSUBD 7 6 6, .movqLoad ⟨.AX, none, 1, 0⟩ .DI, .vstore 6 ⟨.DI, some .SI, 4, 0⟩,
   .addqImm 8 .SI,
   .lab .N_loop_end, .cmpq .SI .DX, .jl .N_loop_body, .ret]

/-- `decomposePolyToUint64AVX2`. tfhe/asm_decompose_amd64.s:72-128. -/
def decomposePolyToUint64AVX2 : Prog :=
  [.movqArg 0 .AX, .movqArg 24 .CX, .movqArg 32 .DX, .movqArg 8 .BX, .vbcastqArg 48 0, .vbcastqArg 56 1,
   .vbcastqArg 64 2, .vbcastqConst 0x0000000000000001 3, .v .VPSUBQ 3 0 4, .vimm .VPSRLQ 1 0 0,
   .v .VPSUBQ 3 1 5, .xorq .SI .SI, .jmp .N_loop_end,
   .lab .N_loop_body, .vload ⟨.CX, some .SI, 8, 0⟩ 6, .v .VPSRLVQ 2 6 7, .vimm .VPSLLQ 1 6 6,
   .v .VPSRLVQ 2 6 6, .v .VANDPD 3 6 6, .v .VPADDQ 6 7 6, .movq .BX .DI, .subqImm 1 .DI, .movq .DI .R8,
   .addq .DI .R8, .addq .DI .R8, .jmp .level_loop_end,
   .lab .level_loop_body, .v .VANDPD 4 6 7, .v .VPSRLVQ 1 6 6, .v .VPSRLVQ 5 7 8, .v .VPADDQ 8 6 6,
   .v .VANDPD 0 7 8, .vimm .VPSLLQ 1 8 8, .v .VPSUBQ 8 7 7, .movqLoad ⟨.AX, some .R8, 8, 0⟩ .R9,
   .vstore 7 ⟨.R9, some .SI, 8, 0⟩, .subqImm 1 .DI, .subqImm 3 .R8,
   .lab .level_loop_end, .cmpqImm .DI 1, .jge .level_loop_body, .v .VANDPD 4 6 6, .v .VANDPD 0 6 7,
   .vimm .VPSLLQ 1 7 7, .v .VPSUBQ 7 6 6, .movqLoad ⟨.AX, none, 1, 0⟩ .DI, .vstore 6 ⟨.DI, some .SI, 8, 0⟩,
   .addqImm 4 .SI,
   .lab .N_loop_end, .cmpq .SI .DX, .jl .N_loop_body, .ret]


/-- `decomposePolyTo` on `uint32` with AVX2: the call of the assembly.  `dcmpOut` is the slice of slice headers.  There is no
check of any length.  tfhe/asm_decompose_amd64.go:14-26. -/
def decomposePolyTo32 (F : Fpu) (dcmpOut p : GoSlice) (gp : GadgetParams 32) (g : Reg → BitVec 64) (y : Nat → Y)
    (m m' : Memory) : Prop :=
  Returns F decomposePolyToUint32AVX2 (dcmpOut.arg ++ p.arg ++
    [gp.base, BitVec.ofNat 32 gp.logBase, BitVec.ofNat 32 gp.logLastBaseQ]) (entry g y m) m'

/-- `decomposePolyTo` on `uint64` with AVX2. tfhe/asm_decompose_amd64.go:14-36. -/
def decomposePolyTo64 (F : Fpu) (dcmpOut p : GoSlice) (gp : GadgetParams 64) (g : Reg → BitVec 64) (y : Nat → Y)
    (m m' : Memory) : Prop :=
  Returns F decomposePolyToUint64AVX2 (dcmpOut.arg ++ p.arg ++ (word64 gp.base ++
    word64 (BitVec.ofNat 64 gp.logBase) ++ word64 (BitVec.ofNat 64 gp.logLastBaseQ))) (entry g y m) m'

/-- The Go loop of `decomposePolyTo` for outputs of the length of `p`: the new contents of `dcmpOut`; `none` is an index out of
range.  tfhe/asm_decompose.go:11-24. -/
def goDecomposePoly {w : Nat} (gp : GadgetParams w) (dcmpOut : List (List (BitVec w))) (p : List (BitVec w)) :
    Option (List (List (BitVec w))) :=
  if dcmpOut.length < gp.level ∧ p ≠ [] then none
  else some (dcmpOut.mapIdx fun j o => if j < gp.level then p.map fun x => (decomposeScalar gp x).getD j 0 else o)

end Asm
end Tfhe
