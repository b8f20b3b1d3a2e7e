import Verif.Model.Asm

/-!
# The programs of `math/poly/asm_fft_amd64.s`

Transcribed line by line; operands keep the order of the Go assembler.
-/
namespace Tfhe
namespace Asm

/-- `fwdFFTInPlaceAVX2`. math/poly/asm_fft_amd64.s:9-161. -/
def fwdFFTInPlaceAVX2 : Prog :=
  [.movqArg 0 .AX, .movqArg 24 .CX, .movqArg 8 .DX, .xorq .BX .BX, .movq .DX .SI, .shrq 1 .SI,
   .vbcastqLoad ⟨.CX, some .BX, 8, 0⟩ 0, .vbcastqLoad ⟨.CX, some .BX, 8, 8⟩ 1, .addqImm 2 .BX,
   .xorq .DI .DI, .movq .SI .R8, .jmp .first_loop_end,
   .lab .first_loop_body, .vload ⟨.AX, some .DI, 8, 0⟩ 2, .vload ⟨.AX, some .DI, 8, 32⟩ 3,
   .vload ⟨.AX, some .R8, 8, 0⟩ 4, .vload ⟨.AX, some .R8, 8, 32⟩ 5, .v .VMULPD 0 4 6,
   .vfma .VFNMADD231PD 1 5 6, .v .VMULPD 1 4 7, .vfma .VFMADD231PD 0 5 7, .v .VSUBPD 6 2 4,
   .v .VSUBPD 7 3 5, .v .VADDPD 6 2 2, .v .VADDPD 7 3 3, .vstore 2 ⟨.AX, some .DI, 8, 0⟩,
   .vstore 3 ⟨.AX, some .DI, 8, 32⟩, .vstore 4 ⟨.AX, some .R8, 8, 0⟩, .vstore 5 ⟨.AX, some .R8, 8, 32⟩,
   .addqImm 8 .DI, .addqImm 8 .R8,
   .lab .first_loop_end, .cmpq .DI .SI, .jl .first_loop_body, .movq .DX .SI, .shrq 4 .SI, .movq .DX .R9,
   .shrq 1 .R9, .movqImm 2 .R10, .jmp .m_loop_end,
   .lab .m_loop_body, .shrq 1 .R9, .xorq .R11 .R11, .jmp .i_loop_end,
   .lab .i_loop_body, .movq .R9 .DI, .imulq .R11 .DI, .shlq 1 .DI, .movq .DI .R12, .addq .R9 .R12,
   .vbcastqLoad ⟨.CX, some .BX, 8, 0⟩ 0, .vbcastqLoad ⟨.CX, some .BX, 8, 8⟩ 1, .addqImm 2 .BX,
   .movq .R12 .R8, .jmp .j_loop_end,
   .lab .j_loop_body, .vload ⟨.AX, some .DI, 8, 0⟩ 2, .vload ⟨.AX, some .DI, 8, 32⟩ 3,
   .vload ⟨.AX, some .R8, 8, 0⟩ 4, .vload ⟨.AX, some .R8, 8, 32⟩ 5, .v .VMULPD 0 4 6,
   .vfma .VFNMADD231PD 1 5 6, .v .VMULPD 1 4 7, .vfma .VFMADD231PD 0 5 7, .v .VSUBPD 6 2 4,
   .v .VSUBPD 7 3 5, .v .VADDPD 6 2 2, .v .VADDPD 7 3 3, .vstore 2 ⟨.AX, some .DI, 8, 0⟩,
   .vstore 3 ⟨.AX, some .DI, 8, 32⟩, .vstore 4 ⟨.AX, some .R8, 8, 0⟩, .vstore 5 ⟨.AX, some .R8, 8, 32⟩,
   .addqImm 8 .DI, .addqImm 8 .R8,
   .lab .j_loop_end, .cmpq .DI .R12, .jl .j_loop_body, .addqImm 1 .R11,
   .lab .i_loop_end, .cmpq .R11 .R10, .jl .i_loop_body, .shlq 1 .R10,
   .lab .m_loop_end, .cmpq .R10 .SI, .jle .m_loop_body, .xorq .DI .DI, .jmp .last_loop_2_end,
   .lab .last_loop_2_body, .vloadX ⟨.CX, some .BX, 8, 0⟩ 0, .vshufpdX 3 0 0 1, .vshufpdX 0 0 0 0,
   .addqImm 2 .BX, .vloadX ⟨.AX, some .DI, 8, 0⟩ 2, .vloadX ⟨.AX, some .DI, 8, 16⟩ 3,
   .vloadX ⟨.AX, some .DI, 8, 32⟩ 4, .vloadX ⟨.AX, some .DI, 8, 48⟩ 5, .vx .VMULPD 0 3 6,
   .vfmax .VFNMADD231PD 1 5 6, .vx .VMULPD 1 3 1, .vfmax .VFMADD231PD 0 5 1, .vx .VSUBPD 6 2 3,
   .vx .VSUBPD 1 4 5, .vx .VADDPD 6 2 2, .vx .VADDPD 1 4 4, .vstoreX 2 ⟨.AX, some .DI, 8, 0⟩,
   .vstoreX 3 ⟨.AX, some .DI, 8, 16⟩, .vstoreX 4 ⟨.AX, some .DI, 8, 32⟩, .vstoreX 5 ⟨.AX, some .DI, 8, 48⟩,
   .addqImm 8 .DI,
   .lab .last_loop_2_end, .cmpq .DI .DX, .jl .last_loop_2_body, .v .VXORPD 0 0 0, .xorq .DI .DI,
   .jmp .last_loop_1_end,
   .lab .last_loop_1_body, .vload ⟨.CX, some .BX, 8, 0⟩ 2, .vshufpd 5 2 2 3, .addqImm 4 .BX,
   .vload ⟨.AX, some .DI, 8, 0⟩ 6, .vload ⟨.AX, some .DI, 8, 32⟩ 1, .vshufpd 15 6 6 4, .vshufpd 15 1 1 5,
   .v .VMULPD 3 5 5, .vfma .VFMADDSUB231PD 2 4 5, .vshufpd 0 6 6 2, .vshufpd 0 1 1 3, .vshufpd 0 5 5 1,
   .vshufpd 15 5 5 4, .v .VSUBPD 1 0 1, .v .VSUBPD 4 0 4, .v .VADDSUBPD 1 2 1, .v .VADDSUBPD 4 3 2,
   .vstore 1 ⟨.AX, some .DI, 8, 0⟩, .vstore 2 ⟨.AX, some .DI, 8, 32⟩, .addqImm 8 .DI,
   .lab .last_loop_1_end, .cmpq .DI .DX, .jl .last_loop_1_body, .ret]

/-- `invFFTInPlaceAVX2`. math/poly/asm_fft_amd64.s:165-317. -/
def invFFTInPlaceAVX2 : Prog :=
  [.movqArg 0 .AX, .movqArg 24 .CX, .movqArg 8 .DX, .xorq .BX .BX, .xorq .SI .SI, .jmp .first_loop_1_end,
   .lab .first_loop_1_body, .vload ⟨.CX, some .BX, 8, 0⟩ 0, .vshufpd 5 0 0 1, .addqImm 4 .BX,
   .vload ⟨.AX, some .SI, 8, 0⟩ 2, .vload ⟨.AX, some .SI, 8, 32⟩ 3, .v .VHADDPD 2 2 4, .v .VHADDPD 3 3 5,
   .vshufpd 0 3 2 6, .vshufpd 15 3 2 2, .v .VSUBPD 2 6 2, .vshufpd 0 2 2 3, .vshufpd 15 2 2 2,
   .v .VMULPD 1 2 1, .vfma .VFMADDSUB231PD 0 3 1, .vshufpd 0 1 4 0, .vshufpd 15 1 5 1,
   .vstore 0 ⟨.AX, some .SI, 8, 0⟩, .vstore 1 ⟨.AX, some .SI, 8, 32⟩, .addqImm 8 .SI,
   .lab .first_loop_1_end, .cmpq .SI .DX, .jl .first_loop_1_body, .xorq .SI .SI, .jmp .first_loop_2_end,
   .lab .first_loop_2_body, .vloadX ⟨.CX, some .BX, 8, 0⟩ 0, .vshufpdX 3 0 0 1, .vshufpdX 0 0 0 0,
   .addqImm 2 .BX, .vloadX ⟨.AX, some .SI, 8, 0⟩ 2, .vloadX ⟨.AX, some .SI, 8, 16⟩ 3,
   .vloadX ⟨.AX, some .SI, 8, 32⟩ 4, .vloadX ⟨.AX, some .SI, 8, 48⟩ 5, .vx .VSUBPD 3 2 6,
   .vx .VADDPD 3 2 2, .vx .VSUBPD 5 4 7, .vx .VADDPD 5 4 4, .vx .VMULPD 0 6 3, .vfmax .VFNMADD231PD 1 7 3,
   .vx .VMULPD 1 6 5, .vfmax .VFMADD231PD 0 7 5, .vstoreX 2 ⟨.AX, some .SI, 8, 0⟩,
   .vstoreX 3 ⟨.AX, some .SI, 8, 16⟩, .vstoreX 4 ⟨.AX, some .SI, 8, 32⟩, .vstoreX 5 ⟨.AX, some .SI, 8, 48⟩,
   .addqImm 8 .SI,
   .lab .first_loop_2_end, .cmpq .SI .DX, .jl .first_loop_2_body, .movqImm 8 .SI, .movq .DX .DI,
   .shrq 4 .DI, .jmp .m_loop_end,
   .lab .m_loop_body, .xorq .R8 .R8, .jmp .i_loop_end,
   .lab .i_loop_body, .movq .SI .R9, .imulq .R8 .R9, .shlq 1 .R9, .movq .R9 .R10, .addq .SI .R10,
   .vbcastqLoad ⟨.CX, some .BX, 8, 0⟩ 0, .vbcastqLoad ⟨.CX, some .BX, 8, 8⟩ 1, .addqImm 2 .BX,
   .movq .R10 .R11, .jmp .j_loop_end,
   .lab .j_loop_body, .vload ⟨.AX, some .R9, 8, 0⟩ 2, .vload ⟨.AX, some .R9, 8, 32⟩ 3,
   .vload ⟨.AX, some .R11, 8, 0⟩ 4, .vload ⟨.AX, some .R11, 8, 32⟩ 5, .v .VSUBPD 4 2 6, .v .VADDPD 4 2 2,
   .v .VSUBPD 5 3 7, .v .VADDPD 5 3 3, .v .VMULPD 0 6 4, .vfma .VFNMADD231PD 1 7 4, .v .VMULPD 1 6 5,
   .vfma .VFMADD231PD 0 7 5, .vstore 2 ⟨.AX, some .R9, 8, 0⟩, .vstore 3 ⟨.AX, some .R9, 8, 32⟩,
   .vstore 4 ⟨.AX, some .R11, 8, 0⟩, .vstore 5 ⟨.AX, some .R11, 8, 32⟩, .addqImm 8 .R9, .addqImm 8 .R11,
   .lab .j_loop_end, .cmpq .R9 .R10, .jl .j_loop_body, .addqImm 1 .R8,
   .lab .i_loop_end, .cmpq .R8 .DI, .jl .i_loop_body, .shlq 1 .SI, .shrq 1 .DI,
   .lab .m_loop_end, .cmpqImm .DI 2, .jge .m_loop_body, .vbcastqArg 48 0,
   .vbcastqLoad ⟨.CX, some .BX, 8, 0⟩ 1, .vbcastqLoad ⟨.CX, some .BX, 8, 8⟩ 6, .movq .DX .CX, .shrq 1 .CX,
   .xorq .R9 .R9, .movq .CX .R11, .jmp .last_loop_end,
   .lab .last_loop_body, .vload ⟨.AX, some .R9, 8, 0⟩ 2, .vload ⟨.AX, some .R9, 8, 32⟩ 3,
   .vload ⟨.AX, some .R11, 8, 0⟩ 4, .vload ⟨.AX, some .R11, 8, 32⟩ 5, .v .VSUBPD 4 2 7, .v .VADDPD 4 2 2,
   .v .VSUBPD 5 3 8, .v .VADDPD 5 3 3, .v .VMULPD 1 7 4, .vfma .VFNMADD231PD 6 8 4, .v .VMULPD 6 7 5,
   .vfma .VFMADD231PD 1 8 5, .v .VMULPD 0 2 2, .v .VMULPD 0 3 3, .v .VMULPD 0 4 4, .v .VMULPD 0 5 5,
   .vstore 2 ⟨.AX, some .R9, 8, 0⟩, .vstore 3 ⟨.AX, some .R9, 8, 32⟩, .vstore 4 ⟨.AX, some .R11, 8, 0⟩,
   .vstore 5 ⟨.AX, some .R11, 8, 32⟩, .addqImm 8 .R9, .addqImm 8 .R11,
   .lab .last_loop_end, .cmpq .R9 .CX, .jl .last_loop_body, .ret]

end Asm
end Tfhe
