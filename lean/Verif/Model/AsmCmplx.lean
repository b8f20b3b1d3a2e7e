import Verif.Model.Asm

/-!
# The programs of `math/poly/asm_vec_cmplx_amd64.s`

Transcribed line by line; operands keep the order of the Go assembler.
-/
namespace Tfhe
namespace Asm

/-- `addCmplxToAVX2`. math/poly/asm_vec_cmplx_amd64.s:9-27. -/
def addCmplxToAVX2 : Prog :=
  [.movqArg 0 .AX, .movqArg 24 .CX, .movqArg 48 .DX, .movqArg 8 .BX, .xorq .SI .SI, .jmp .loop_end,
   .lab .loop_body, .vload ⟨.CX, some .SI, 8, 0⟩ 0, .vload ⟨.DX, some .SI, 8, 0⟩ 1, .v .VADDPD 1 0 0,
   .vstore 0 ⟨.AX, some .SI, 8, 0⟩, .addqImm 4 .SI,
   .lab .loop_end, .cmpq .SI .BX, .jl .loop_body, .ret]

/-- `subCmplxToAVX2`. math/poly/asm_vec_cmplx_amd64.s:31-49. -/
def subCmplxToAVX2 : Prog :=
  [.movqArg 0 .AX, .movqArg 24 .CX, .movqArg 48 .DX, .movqArg 8 .BX, .xorq .SI .SI, .jmp .loop_end,
   .lab .loop_body, .vload ⟨.CX, some .SI, 8, 0⟩ 0, .vload ⟨.DX, some .SI, 8, 0⟩ 1, .v .VSUBPD 1 0 0,
   .vstore 0 ⟨.AX, some .SI, 8, 0⟩, .addqImm 4 .SI,
   .lab .loop_end, .cmpq .SI .BX, .jl .loop_body, .ret]

/-- `negCmplxToAVX2`. math/poly/asm_vec_cmplx_amd64.s:53-70. -/
def negCmplxToAVX2 : Prog :=
  [.movqArg 0 .AX, .movqArg 24 .CX, .movqArg 8 .DX, .v .VXORPD 0 0 0, .xorq .BX .BX, .jmp .loop_end,
   .lab .loop_body, .vload ⟨.CX, some .BX, 8, 0⟩ 1, .v .VSUBPD 1 0 1, .vstore 1 ⟨.AX, some .BX, 8, 0⟩,
   .addqImm 4 .BX,
   .lab .loop_end, .cmpq .BX .DX, .jl .loop_body, .ret]

/-- `floatMulCmplxToAVX2`. math/poly/asm_vec_cmplx_amd64.s:74-91. -/
def floatMulCmplxToAVX2 : Prog :=
  [.movqArg 0 .AX, .movqArg 24 .CX, .movqArg 8 .DX, .vbcastqArg 48 0, .xorq .BX .BX, .jmp .loop_end,
   .lab .loop_body, .vload ⟨.CX, some .BX, 8, 0⟩ 1, .v .VMULPD 0 1 1, .vstore 1 ⟨.AX, some .BX, 8, 0⟩,
   .addqImm 4 .BX,
   .lab .loop_end, .cmpq .BX .DX, .jl .loop_body, .ret]

/-- `floatMulAddCmplxToAVX2`. math/poly/asm_vec_cmplx_amd64.s:95-113. -/
def floatMulAddCmplxToAVX2 : Prog :=
  [.movqArg 0 .AX, .movqArg 24 .CX, .movqArg 8 .DX, .vbcastqArg 48 0, .xorq .BX .BX, .jmp .loop_end,
   .lab .loop_body, .vload ⟨.CX, some .BX, 8, 0⟩ 1, .vload ⟨.AX, some .BX, 8, 0⟩ 2,
   .vfma .VFMADD231PD 0 1 2, .vstore 2 ⟨.AX, some .BX, 8, 0⟩, .addqImm 4 .BX,
   .lab .loop_end, .cmpq .BX .DX, .jl .loop_body, .ret]

/-- `floatMulSubCmplxToAVX2`. math/poly/asm_vec_cmplx_amd64.s:117-135. -/
def floatMulSubCmplxToAVX2 : Prog :=
  [.movqArg 0 .AX, .movqArg 24 .CX, .movqArg 8 .DX, .vbcastqArg 48 0, .xorq .BX .BX, .jmp .loop_end,
   .lab .loop_body, .vload ⟨.CX, some .BX, 8, 0⟩ 1, .vload ⟨.AX, some .BX, 8, 0⟩ 2,
   .vfma .VFNMADD231PD 0 1 2, .vstore 2 ⟨.AX, some .BX, 8, 0⟩, .addqImm 4 .BX,
   .lab .loop_end, .cmpq .BX .DX, .jl .loop_body, .ret]

/-- `cmplxMulCmplxToAVX2`. math/poly/asm_vec_cmplx_amd64.s:139-162. -/
def cmplxMulCmplxToAVX2 : Prog :=
  [.movqArg 0 .AX, .movqArg 24 .CX, .movqArg 8 .DX, .vbcastqArg 48 0, .vbcastqArg 56 1, .xorq .BX .BX,
   .jmp .loop_end,
   .lab .loop_body, .vload ⟨.CX, some .BX, 8, 0⟩ 2, .vload ⟨.CX, some .BX, 8, 32⟩ 3, .v .VMULPD 0 2 4,
   .vfma .VFNMADD231PD 1 3 4, .v .VMULPD 0 3 3, .vfma .VFMADD231PD 1 2 3, .vstore 4 ⟨.AX, some .BX, 8, 0⟩,
   .vstore 3 ⟨.AX, some .BX, 8, 32⟩, .addqImm 8 .BX,
   .lab .loop_end, .cmpq .BX .DX, .jl .loop_body, .ret]

/-- `cmplxMulAddCmplxToAVX2`. math/poly/asm_vec_cmplx_amd64.s:166-191. -/
def cmplxMulAddCmplxToAVX2 : Prog :=
  [.movqArg 0 .AX, .movqArg 24 .CX, .movqArg 8 .DX, .vbcastqArg 48 0, .vbcastqArg 56 1, .xorq .BX .BX,
   .jmp .loop_end,
   .lab .loop_body, .vload ⟨.CX, some .BX, 8, 0⟩ 2, .vload ⟨.CX, some .BX, 8, 32⟩ 3,
   .vload ⟨.AX, some .BX, 8, 0⟩ 4, .vload ⟨.AX, some .BX, 8, 32⟩ 5, .vfma .VFMADD231PD 0 2 4,
   .vfma .VFNMADD231PD 1 3 4, .vfma .VFMADD231PD 0 3 5, .vfma .VFMADD231PD 1 2 5,
   .vstore 4 ⟨.AX, some .BX, 8, 0⟩, .vstore 5 ⟨.AX, some .BX, 8, 32⟩, .addqImm 8 .BX,
   .lab .loop_end, .cmpq .BX .DX, .jl .loop_body, .ret]

/-- `cmplxMulSubCmplxToAVX2`. math/poly/asm_vec_cmplx_amd64.s:195-220. -/
def cmplxMulSubCmplxToAVX2 : Prog :=
  [.movqArg 0 .AX, .movqArg 24 .CX, .movqArg 8 .DX, .vbcastqArg 48 0, .vbcastqArg 56 1, .xorq .BX .BX,
   .jmp .loop_end,
   .lab .loop_body, .vload ⟨.CX, some .BX, 8, 0⟩ 2, .vload ⟨.CX, some .BX, 8, 32⟩ 3,
   .vload ⟨.AX, some .BX, 8, 0⟩ 4, .vload ⟨.AX, some .BX, 8, 32⟩ 5, .vfma .VFNMADD231PD 0 2 4,
   .vfma .VFMADD231PD 1 3 4, .vfma .VFNMADD231PD 0 3 5, .vfma .VFNMADD231PD 1 2 5,
   .vstore 4 ⟨.AX, some .BX, 8, 0⟩, .vstore 5 ⟨.AX, some .BX, 8, 32⟩, .addqImm 8 .BX,
   .lab .loop_end, .cmpq .BX .DX, .jl .loop_body, .ret]

/-- `mulCmplxToAVX2`. math/poly/asm_vec_cmplx_amd64.s:224-248. -/
def mulCmplxToAVX2 : Prog :=
  [.movqArg 0 .AX, .movqArg 24 .CX, .movqArg 48 .DX, .movqArg 8 .BX, .xorq .SI .SI, .jmp .loop_end,
   .lab .loop_body, .vload ⟨.CX, some .SI, 8, 0⟩ 0, .vload ⟨.CX, some .SI, 8, 32⟩ 1,
   .vload ⟨.DX, some .SI, 8, 0⟩ 2, .vload ⟨.DX, some .SI, 8, 32⟩ 3, .v .VMULPD 0 2 4,
   .vfma .VFNMADD231PD 1 3 4, .v .VMULPD 0 3 0, .vfma .VFMADD231PD 1 2 0, .vstore 4 ⟨.AX, some .SI, 8, 0⟩,
   .vstore 0 ⟨.AX, some .SI, 8, 32⟩, .addqImm 8 .SI,
   .lab .loop_end, .cmpq .SI .BX, .jl .loop_body, .ret]

/-- `mulAddCmplxToAVX2`. math/poly/asm_vec_cmplx_amd64.s:252-278. -/
def mulAddCmplxToAVX2 : Prog :=
  [.movqArg 0 .AX, .movqArg 24 .CX, .movqArg 48 .DX, .movqArg 8 .BX, .xorq .SI .SI, .jmp .loop_end,
   .lab .loop_body, .vload ⟨.CX, some .SI, 8, 0⟩ 0, .vload ⟨.CX, some .SI, 8, 32⟩ 1,
   .vload ⟨.DX, some .SI, 8, 0⟩ 2, .vload ⟨.DX, some .SI, 8, 32⟩ 3, .vload ⟨.AX, some .SI, 8, 0⟩ 4,
   .vload ⟨.AX, some .SI, 8, 32⟩ 5, .vfma .VFMADD231PD 0 2 4, .vfma .VFNMADD231PD 1 3 4,
   .vfma .VFMADD231PD 0 3 5, .vfma .VFMADD231PD 1 2 5, .vstore 4 ⟨.AX, some .SI, 8, 0⟩,
   .vstore 5 ⟨.AX, some .SI, 8, 32⟩, .addqImm 8 .SI,
   .lab .loop_end, .cmpq .SI .BX, .jl .loop_body, .ret]

/-- `mulSubCmplxToAVX2`. math/poly/asm_vec_cmplx_amd64.s:282-308. -/
def mulSubCmplxToAVX2 : Prog :=
  [.movqArg 0 .AX, .movqArg 24 .CX, .movqArg 48 .DX, .movqArg 8 .BX, .xorq .SI .SI, .jmp .loop_end,
   .lab .loop_body, .vload ⟨.CX, some .SI, 8, 0⟩ 0, .vload ⟨.CX, some .SI, 8, 32⟩ 1,
   .vload ⟨.DX, some .SI, 8, 0⟩ 2, .vload ⟨.DX, some .SI, 8, 32⟩ 3, .vload ⟨.AX, some .SI, 8, 0⟩ 4,
   .vload ⟨.AX, some .SI, 8, 32⟩ 5, .vfma .VFNMADD231PD 0 2 4, .vfma .VFMADD231PD 1 3 4,
   .vfma .VFNMADD231PD 0 3 5, .vfma .VFNMADD231PD 1 2 5, .vstore 4 ⟨.AX, some .SI, 8, 0⟩,
   .vstore 5 ⟨.AX, some .SI, 8, 32⟩, .addqImm 8 .SI,
   .lab .loop_end, .cmpq .SI .BX, .jl .loop_body, .ret]

end Asm
end Tfhe
