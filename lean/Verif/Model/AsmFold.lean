import Verif.Model.AsmVecGo

/-!
# The programs of `math/poly/asm_fold_amd64.s`, and the Go functions that call them

The programs are transcribed line by line.  The static words are written as their values, except the three floats, which the
assembler converts from decimal notation.  The Go functions are those of `math/poly/asm_fold_amd64.go` on a processor with
AVX2; they do not check lengths.
-/
namespace Tfhe
namespace Asm

/-- The float `2^52`. math/poly/asm_fold_amd64.s:7-8. -/
def EXP2_52 : BitVec 64 := 0x4330000000000000
/-- The float `2^84 + 2^63`; the file has `19342822337206104000000000.0`. math/poly/asm_fold_amd64.s:10-11. -/
def EXP2_84_63 : BitVec 64 := 0x4530000080000000
/-- The float `2^84 + 2^63 + 2^52`; the file has `19342822341709703000000000.0`. math/poly/asm_fold_amd64.s:13-14. -/
def EXP2_84_63_52 : BitVec 64 := 0x4530000080100000

/-- `foldPolyToUint32AVX2`. math/poly/asm_fold_amd64.s:30-54. -/
def foldPolyToUint32AVX2 : Prog :=
  [.movqArg 0 .AX, .movqArg 24 .CX, .movqArg 8 .DX, .movq .DX .BX, .shrq 1 .BX, .xorq .SI .SI,
   .xorq .DI .DI, .jmp .loop_end,
   .lab .loop_body, .vloadX ⟨.CX, some .DI, 4, 0⟩ 0, .vloadX ⟨.CX, some .BX, 4, 0⟩ 1, .vcvtdq2pd 0 0,
   .vcvtdq2pd 1 1, .vstore 0 ⟨.AX, some .SI, 8, 0⟩, .vstore 1 ⟨.AX, some .SI, 8, 32⟩, .addqImm 8 .SI,
   .addqImm 4 .DI, .addqImm 4 .BX,
   .lab .loop_end, .cmpq .SI .DX, .jl .loop_body, .ret]

/-- `foldPolyToUint64AVX2`. math/poly/asm_fold_amd64.s:58-93. -/
def foldPolyToUint64AVX2 : Prog :=
  [.movqArg 0 .AX, .movqArg 24 .CX, .movqArg 8 .DX, .movq .DX .BX, .shrq 1 .BX, .vbcastqConst EXP2_52 0,
   .vbcastqConst EXP2_84_63 1, .vbcastqConst EXP2_84_63_52 2, .xorq .SI .SI, .xorq .DI .DI, .jmp .loop_end,
   .lab .loop_body, .vload ⟨.CX, some .DI, 8, 0⟩ 3, .vload ⟨.CX, some .BX, 8, 0⟩ 4, .vpblendd 85 3 0 5,
   .vimm .VPSRLQ 32 3 3, .v .VPXOR 1 3 3, .v .VSUBPD 2 3 3, .v .VADDPD 3 5 3, .vpblendd 85 4 0 5,
   .vimm .VPSRLQ 32 4 4, .v .VPXOR 1 4 4, .v .VSUBPD 2 4 4, .v .VADDPD 4 5 4,
   .vstore 3 ⟨.AX, some .SI, 8, 0⟩, .vstore 4 ⟨.AX, some .SI, 8, 32⟩, .addqImm 8 .SI, .addqImm 4 .DI,
   .addqImm 4 .BX,
   .lab .loop_end, .cmpq .SI .DX, .jl .loop_body, .ret]

/-- `floatModQInPlaceAVX2`. math/poly/asm_fold_amd64.s:97-118. -/
def floatModQInPlaceAVX2 : Prog :=
  [.movqArg 0 .AX, .movqArg 8 .CX, .vbcastqArg 24 0, .vbcastqArg 32 1, .xorq .DX .DX, .jmp .loop_end,
   .lab .loop_body, .vload ⟨.AX, some .DX, 8, 0⟩ 2, .v .VMULPD 1 2 2, .vroundpd 2 3, .v .VSUBPD 3 2 2,
   .v .VMULPD 0 2 2, .vroundpd 2 2, .vstore 2 ⟨.AX, some .DX, 8, 0⟩, .addqImm 4 .DX,
   .lab .loop_end, .cmpq .DX .CX, .jl .loop_body, .ret]

/-- `unfoldPolyToUint32AVX2`. math/poly/asm_fold_amd64.s:122-146. -/
def unfoldPolyToUint32AVX2 : Prog :=
  [.movqArg 0 .AX, .movqArg 24 .CX, .movqArg 32 .DX, .movq .DX .BX, .shrq 1 .BX, .xorq .SI .SI,
   .xorq .DI .DI, .jmp .loop_end,
   .lab .loop_body, .vload ⟨.CX, some .SI, 8, 0⟩ 0, .vload ⟨.CX, some .SI, 8, 32⟩ 1, .vcvtpd2dqy 0 0,
   .vcvtpd2dqy 1 1, .vstoreX 0 ⟨.AX, some .DI, 4, 0⟩, .vstoreX 1 ⟨.AX, some .BX, 4, 0⟩, .addqImm 8 .SI,
   .addqImm 4 .DI, .addqImm 4 .BX,
   .lab .loop_end, .cmpq .SI .DX, .jl .loop_body, .ret]

/-- `unfoldPolyAddToUint32AVX2`. math/poly/asm_fold_amd64.s:150-178. -/
def unfoldPolyAddToUint32AVX2 : Prog :=
  [.movqArg 0 .AX, .movqArg 24 .CX, .movqArg 32 .DX, .movq .DX .BX, .shrq 1 .BX, .xorq .SI .SI,
   .xorq .DI .DI, .jmp .loop_end,
   .lab .loop_body, .vload ⟨.CX, some .SI, 8, 0⟩ 0, .vload ⟨.CX, some .SI, 8, 32⟩ 1, .vcvtpd2dqy 0 0,
   .vcvtpd2dqy 1 1, .vloadX ⟨.AX, some .DI, 4, 0⟩ 2, .vloadX ⟨.AX, some .BX, 4, 0⟩ 3, .vx .VPADDD 0 2 2,
   .vx .VPADDD 1 3 3, .vstoreX 2 ⟨.AX, some .DI, 4, 0⟩, .vstoreX 3 ⟨.AX, some .BX, 4, 0⟩, .addqImm 8 .SI,
   .addqImm 4 .DI, .addqImm 4 .BX,
   .lab .loop_end, .cmpq .SI .DX, .jl .loop_body, .ret]

/-- `unfoldPolySubToUint32AVX2`. math/poly/asm_fold_amd64.s:182-210. -/
def unfoldPolySubToUint32AVX2 : Prog :=
  [.movqArg 0 .AX, .movqArg 24 .CX, .movqArg 32 .DX, .movq .DX .BX, .shrq 1 .BX, .xorq .SI .SI,
   .xorq .DI .DI, .jmp .loop_end,
   .lab .loop_body, .vload ⟨.CX, some .SI, 8, 0⟩ 0, .vload ⟨.CX, some .SI, 8, 32⟩ 1, .vcvtpd2dqy 0 0,
   .vcvtpd2dqy 1 1, .vloadX ⟨.AX, some .DI, 4, 0⟩ 2, .vloadX ⟨.AX, some .BX, 4, 0⟩ 3, .vx .VPSUBD 0 2 2,
   .vx .VPSUBD 1 3 3, .vstoreX 2 ⟨.AX, some .DI, 4, 0⟩, .vstoreX 3 ⟨.AX, some .BX, 4, 0⟩, .addqImm 8 .SI,
   .addqImm 4 .DI, .addqImm 4 .BX,
   .lab .loop_end, .cmpq .SI .DX, .jl .loop_body, .ret]

/-- `unfoldPolyToUint64AVX2`. math/poly/asm_fold_amd64.s:214-263. -/
def unfoldPolyToUint64AVX2 : Prog :=
  [.movqArg 0 .AX, .movqArg 24 .CX, .movqArg 32 .DX, .movq .DX .BX, .shrq 1 .BX,
   .vbcastqConst 0x000fffffffffffff 0, .vbcastqConst 0x0010000000000000 1,
   .vbcastqConst 0x00000000000007ff 2, .vbcastqConst 0x000000000000043e 3, .v .VPXOR 4 4 4, .xorq .SI .SI,
   .xorq .DI .DI, .jmp .loop_end,
   .lab .loop_body, .vload ⟨.CX, some .SI, 8, 0⟩ 5, .vload ⟨.CX, some .SI, 8, 32⟩ 6, .v .VANDPD 0 5 7,
   .v .VORPD 1 7 7, .vimm .VPSRLQ 52 5 8, .v .VANDPD 2 8 8, .vimm .VPSRLQ 63 5 5, .v .VPSUBQ 5 4 5,
   .vimm .VPSLLQ 11 7 7, .v .VPSUBQ 8 3 8, .v .VPSRLVQ 8 7 7, .v .VPSUBQ 7 4 8, .vpblendvb 5 8 7 5,
   .v .VANDPD 0 6 7, .v .VORPD 1 7 7, .vimm .VPSRLQ 52 6 8, .v .VANDPD 2 8 8, .vimm .VPSRLQ 63 6 6,
   .v .VPSUBQ 6 4 6, .vimm .VPSLLQ 11 7 7, .v .VPSUBQ 8 3 8, .v .VPSRLVQ 8 7 7, .v .VPSUBQ 7 4 8,
   .vpblendvb 6 8 7 6, .vstore 5 ⟨.AX, some .DI, 8, 0⟩, .vstore 6 ⟨.AX, some .BX, 8, 0⟩, .addqImm 8 .SI,
   .addqImm 4 .DI, .addqImm 4 .BX,
   .lab .loop_end, .cmpq .SI .DX, .jl .loop_body, .ret]

/-- `unfoldPolyAddToUint64AVX2`. math/poly/asm_fold_amd64.s:267-320. -/
def unfoldPolyAddToUint64AVX2 : Prog :=
  [.movqArg 0 .AX, .movqArg 24 .CX, .movqArg 32 .DX, .movq .DX .BX, .shrq 1 .BX,
   .vbcastqConst 0x000fffffffffffff 0, .vbcastqConst 0x0010000000000000 1,
   .vbcastqConst 0x00000000000007ff 2, .vbcastqConst 0x000000000000043e 3, .v .VPXOR 4 4 4, .xorq .SI .SI,
   .xorq .DI .DI, .jmp .loop_end,
   .lab .loop_body, .vload ⟨.CX, some .SI, 8, 0⟩ 5, .vload ⟨.CX, some .SI, 8, 32⟩ 6, .v .VANDPD 0 5 7,
   .v .VORPD 1 7 7, .vimm .VPSRLQ 52 5 8, .v .VANDPD 2 8 8, .vimm .VPSRLQ 63 5 5, .v .VPSUBQ 5 4 5,
   .vimm .VPSLLQ 11 7 7, .v .VPSUBQ 8 3 8, .v .VPSRLVQ 8 7 7, .v .VPSUBQ 7 4 8, .vpblendvb 5 8 7 5,
   .v .VANDPD 0 6 7, .v .VORPD 1 7 7, .vimm .VPSRLQ 52 6 8, .v .VANDPD 2 8 8, .vimm .VPSRLQ 63 6 6,
   .v .VPSUBQ 6 4 6, .vimm .VPSLLQ 11 7 7, .v .VPSUBQ 8 3 8, .v .VPSRLVQ 8 7 7, .v .VPSUBQ 7 4 8,
   .vpblendvb 6 8 7 6, .vload ⟨.AX, some .DI, 8, 0⟩ 7, .vload ⟨.AX, some .BX, 8, 0⟩ 8, .v .VPADDQ 5 7 7,
   .v .VPADDQ 6 8 8, .vstore 7 ⟨.AX, some .DI, 8, 0⟩, .vstore 8 ⟨.AX, some .BX, 8, 0⟩, .addqImm 8 .SI,
   .addqImm 4 .DI, .addqImm 4 .BX,
   .lab .loop_end, .cmpq .SI .DX, .jl .loop_body, .ret]

/-- `unfoldPolySubToUint64AVX2`. math/poly/asm_fold_amd64.s:324-377. -/
def unfoldPolySubToUint64AVX2 : Prog :=
  [.movqArg 0 .AX, .movqArg 24 .CX, .movqArg 32 .DX, .movq .DX .BX, .shrq 1 .BX,
   .vbcastqConst 0x000fffffffffffff 0, .vbcastqConst 0x0010000000000000 1,
   .vbcastqConst 0x00000000000007ff 2, .vbcastqConst 0x000000000000043e 3, .v .VPXOR 4 4 4, .xorq .SI .SI,
   .xorq .DI .DI, .jmp .loop_end,
   .lab .loop_body, .vload ⟨.CX, some .SI, 8, 0⟩ 5, .vload ⟨.CX, some .SI, 8, 32⟩ 6, .v .VANDPD 0 5 7,
   .v .VORPD 1 7 7, .vimm .VPSRLQ 52 5 8, .v .VANDPD 2 8 8, .vimm .VPSRLQ 63 5 5, .v .VPSUBQ 5 4 5,
   .vimm .VPSLLQ 11 7 7, .v .VPSUBQ 8 3 8, .v .VPSRLVQ 8 7 7, .v .VPSUBQ 7 4 8, .vpblendvb 5 8 7 5,
   .v .VANDPD 0 6 7, .v .VORPD 1 7 7, .vimm .VPSRLQ 52 6 8, .v .VANDPD 2 8 8, .vimm .VPSRLQ 63 6 6,
   .v .VPSUBQ 6 4 6, .vimm .VPSLLQ 11 7 7, .v .VPSUBQ 8 3 8, .v .VPSRLVQ 8 7 7, .v .VPSUBQ 7 4 8,
   .vpblendvb 6 8 7 6, .vload ⟨.AX, some .DI, 8, 0⟩ 7, .vload ⟨.AX, some .BX, 8, 0⟩ 8, .v .VPSUBQ 5 7 7,
   .v .VPSUBQ 6 8 8, .vstore 7 ⟨.AX, some .DI, 8, 0⟩, .vstore 8 ⟨.AX, some .BX, 8, 0⟩, .addqImm 8 .SI,
   .addqImm 4 .DI, .addqImm 4 .BX,
   .lab .loop_end, .cmpq .SI .DX, .jl .loop_body, .ret]


/-- `foldPolyTo` on `uint32` with AVX2. math/poly/asm_fold_amd64.go:14-20. -/
def foldPolyTo32 (F : Fpu) (fpOut p : GoSlice) (g : Reg → BitVec 64) (y : Nat → Y) (m m' : Memory) : Prop :=
  Returns F foldPolyToUint32AVX2 (fpOut.arg ++ p.arg) (entry g y m) m'
/-- `foldPolyTo` on `uint64` with AVX2. math/poly/asm_fold_amd64.go:14-23. -/
def foldPolyTo64 (F : Fpu) (fpOut p : GoSlice) (g : Reg → BitVec 64) (y : Nat → Y) (m m' : Memory) : Prop :=
  Returns F foldPolyToUint64AVX2 (fpOut.arg ++ p.arg) (entry g y m) m'
/-- `floatModQInPlace` with AVX; `qInv` is the value of `1/q`. math/poly/asm_fold_amd64.go:152-156. -/
def floatModQInPlace (F : Fpu) (coeffs : GoSlice) (q qInv : BitVec 64) (g : Reg → BitVec 64) (y : Nat → Y) (m m' : Memory) : Prop :=
  Returns F floatModQInPlaceAVX2 (coeffs.arg ++ (word64 q ++ word64 qInv)) (entry g y m) m'
/-- `unfoldPolyTo` on `uint32` with AVX2. math/poly/asm_fold_amd64.go:179-185. -/
def unfoldPolyTo32 (F : Fpu) (pOut fp : GoSlice) (g : Reg → BitVec 64) (y : Nat → Y) (m m' : Memory) : Prop :=
  Returns F unfoldPolyToUint32AVX2 (pOut.arg ++ fp.arg) (entry g y m) m'
/-- `unfoldPolyTo` on `uint64` with AVX2. math/poly/asm_fold_amd64.go:179-188. -/
def unfoldPolyTo64 (F : Fpu) (pOut fp : GoSlice) (g : Reg → BitVec 64) (y : Nat → Y) (m m' : Memory) : Prop :=
  Returns F unfoldPolyToUint64AVX2 (pOut.arg ++ fp.arg) (entry g y m) m'
/-- `unfoldPolyAddTo` on `uint32` with AVX2. math/poly/asm_fold_amd64.go:217-223. -/
def unfoldPolyAddTo32 (F : Fpu) (pOut fp : GoSlice) (g : Reg → BitVec 64) (y : Nat → Y) (m m' : Memory) : Prop :=
  Returns F unfoldPolyAddToUint32AVX2 (pOut.arg ++ fp.arg) (entry g y m) m'
/-- `unfoldPolyAddTo` on `uint64` with AVX2. math/poly/asm_fold_amd64.go:217-226. -/
def unfoldPolyAddTo64 (F : Fpu) (pOut fp : GoSlice) (g : Reg → BitVec 64) (y : Nat → Y) (m m' : Memory) : Prop :=
  Returns F unfoldPolyAddToUint64AVX2 (pOut.arg ++ fp.arg) (entry g y m) m'
/-- `unfoldPolySubTo` on `uint32` with AVX2. math/poly/asm_fold_amd64.go:255-261. -/
def unfoldPolySubTo32 (F : Fpu) (pOut fp : GoSlice) (g : Reg → BitVec 64) (y : Nat → Y) (m m' : Memory) : Prop :=
  Returns F unfoldPolySubToUint32AVX2 (pOut.arg ++ fp.arg) (entry g y m) m'
/-- `unfoldPolySubTo` on `uint64` with AVX2. math/poly/asm_fold_amd64.go:255-264. -/
def unfoldPolySubTo64 (F : Fpu) (pOut fp : GoSlice) (g : Reg → BitVec 64) (y : Nat → Y) (m m' : Memory) : Prop :=
  Returns F unfoldPolySubToUint64AVX2 (pOut.arg ++ fp.arg) (entry g y m) m'

end Asm
end Tfhe
