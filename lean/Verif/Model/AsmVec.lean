import Verif.Model.Asm

/-!
# The programs of `math/vec/asm_vec_amd64.s`

Transcribed line by line; operands keep the order of the Go assembler.  The static word `MASK_HI`
(math/vec/asm_vec_amd64.s:7-8) is written as its value.
-/
namespace Tfhe
namespace Asm

/-- `addToUint32AVX2`. math/vec/asm_vec_amd64.s:12-45. -/
def addToUint32AVX2 : Prog :=
  [.movqArg 0 .AX, .movqArg 24 .CX, .movqArg 48 .DX, .movqArg 8 .BX, .movq .BX .SI, .shrq 3 .SI,
   .shlq 3 .SI, .xorq .DI .DI, .jmp .loop_end,
   .lab .loop_body, .vload ⟨.CX, some .DI, 4, 0⟩ 0, .vload ⟨.DX, some .DI, 4, 0⟩ 1, .v .VPADDD 1 0 0,
   .vstore 0 ⟨.AX, some .DI, 4, 0⟩, .addqImm 8 .DI,
   .lab .loop_end, .cmpq .DI .SI, .jl .loop_body, .jmp .leftover_loop_end,
   .lab .leftover_loop_body, .movlLoad ⟨.CX, some .DI, 4, 0⟩ .SI, .movlLoad ⟨.DX, some .DI, 4, 0⟩ .R8,
   .addl .R8 .SI, .movlStore .SI ⟨.AX, some .DI, 4, 0⟩, .addqImm 1 .DI,
   .lab .leftover_loop_end, .cmpq .DI .BX, .jl .leftover_loop_body, .ret]

/-- `subToUint32AVX2`. math/vec/asm_vec_amd64.s:49-82. -/
def subToUint32AVX2 : Prog :=
  [.movqArg 0 .AX, .movqArg 24 .CX, .movqArg 48 .DX, .movqArg 8 .BX, .movq .BX .SI, .shrq 3 .SI,
   .shlq 3 .SI, .xorq .DI .DI, .jmp .loop_end,
   .lab .loop_body, .vload ⟨.CX, some .DI, 4, 0⟩ 0, .vload ⟨.DX, some .DI, 4, 0⟩ 1, .v .VPSUBD 1 0 0,
   .vstore 0 ⟨.AX, some .DI, 4, 0⟩, .addqImm 8 .DI,
   .lab .loop_end, .cmpq .DI .SI, .jl .loop_body, .jmp .leftover_loop_end,
   .lab .leftover_loop_body, .movlLoad ⟨.CX, some .DI, 4, 0⟩ .SI, .movlLoad ⟨.DX, some .DI, 4, 0⟩ .R8,
   .subl .R8 .SI, .movlStore .SI ⟨.AX, some .DI, 4, 0⟩, .addqImm 1 .DI,
   .lab .leftover_loop_end, .cmpq .DI .BX, .jl .leftover_loop_body, .ret]

/-- `addToUint64AVX2`. math/vec/asm_vec_amd64.s:86-119. -/
def addToUint64AVX2 : Prog :=
  [.movqArg 0 .AX, .movqArg 24 .CX, .movqArg 48 .DX, .movqArg 8 .BX, .movq .BX .SI, .shrq 2 .SI,
   .shlq 2 .SI, .xorq .DI .DI, .jmp .loop_end,
   .lab .loop_body, .vload ⟨.CX, some .DI, 8, 0⟩ 0, .vload ⟨.DX, some .DI, 8, 0⟩ 1, .v .VPADDQ 1 0 0,
   .vstore 0 ⟨.AX, some .DI, 8, 0⟩, .addqImm 4 .DI,
   .lab .loop_end, .cmpq .DI .SI, .jl .loop_body, .jmp .leftover_loop_end,
   .lab .leftover_loop_body, .movqLoad ⟨.CX, some .DI, 8, 0⟩ .SI, .movqLoad ⟨.DX, some .DI, 8, 0⟩ .R8,
   .addq .R8 .SI, .movqStore .SI ⟨.AX, some .DI, 8, 0⟩, .addqImm 1 .DI,
   .lab .leftover_loop_end, .cmpq .DI .BX, .jl .leftover_loop_body, .ret]

/-- `subToUint64AVX2`. math/vec/asm_vec_amd64.s:123-156. -/
def subToUint64AVX2 : Prog :=
  [.movqArg 0 .AX, .movqArg 24 .CX, .movqArg 48 .DX, .movqArg 8 .BX, .movq .BX .SI, .shrq 2 .SI,
   .shlq 2 .SI, .xorq .DI .DI, .jmp .loop_end,
   .lab .loop_body, .vload ⟨.CX, some .DI, 8, 0⟩ 0, .vload ⟨.DX, some .DI, 8, 0⟩ 1, .v .VPSUBQ 1 0 0,
   .vstore 0 ⟨.AX, some .DI, 8, 0⟩, .addqImm 4 .DI,
   .lab .loop_end, .cmpq .DI .SI, .jl .loop_body, .jmp .leftover_loop_end,
   .lab .leftover_loop_body, .movqLoad ⟨.CX, some .DI, 8, 0⟩ .SI, .movqLoad ⟨.DX, some .DI, 8, 0⟩ .R8,
   .subq .R8 .SI, .movqStore .SI ⟨.AX, some .DI, 8, 0⟩, .addqImm 1 .DI,
   .lab .leftover_loop_end, .cmpq .DI .BX, .jl .leftover_loop_body, .ret]

/-- `scalarMulToUint32AVX2`. math/vec/asm_vec_amd64.s:160-192. -/
def scalarMulToUint32AVX2 : Prog :=
  [.movqArg 0 .AX, .movqArg 24 .CX, .movqArg 8 .DX, .movq .DX .BX, .shrq 3 .BX, .shlq 3 .BX,
   .movlArg 48 .SI, .vbcastdArg 48 0, .xorq .DI .DI, .jmp .loop_end,
   .lab .loop_body, .vload ⟨.CX, some .DI, 4, 0⟩ 1, .v .VPMULLD 0 1 1, .vstore 1 ⟨.AX, some .DI, 4, 0⟩,
   .addqImm 8 .DI,
   .lab .loop_end, .cmpq .DI .BX, .jl .loop_body, .jmp .leftover_loop_end,
   .lab .leftover_loop_body, .movlLoad ⟨.CX, some .DI, 4, 0⟩ .BX, .imull .SI .BX,
   .movlStore .BX ⟨.AX, some .DI, 4, 0⟩, .addqImm 1 .DI,
   .lab .leftover_loop_end, .cmpq .DI .DX, .jl .leftover_loop_body, .ret]

/-- `scalarMulAddToUint32AVX2`. math/vec/asm_vec_amd64.s:196-232. -/
def scalarMulAddToUint32AVX2 : Prog :=
  [.movqArg 0 .AX, .movqArg 24 .CX, .movqArg 8 .DX, .movq .DX .BX, .shrq 3 .BX, .shlq 3 .BX,
   .movlArg 48 .SI, .vbcastdArg 48 0, .xorq .DI .DI, .jmp .loop_end,
   .lab .loop_body, .vload ⟨.CX, some .DI, 4, 0⟩ 1, .v .VPMULLD 0 1 1, .vload ⟨.AX, some .DI, 4, 0⟩ 2,
   .v .VPADDD 1 2 2, .vstore 2 ⟨.AX, some .DI, 4, 0⟩, .addqImm 8 .DI,
   .lab .loop_end, .cmpq .DI .BX, .jl .loop_body, .jmp .leftover_loop_end,
   .lab .leftover_loop_body, .movlLoad ⟨.CX, some .DI, 4, 0⟩ .BX, .imull .SI .BX,
   .movlLoad ⟨.AX, some .DI, 4, 0⟩ .R8, .addl .BX .R8, .movlStore .R8 ⟨.AX, some .DI, 4, 0⟩,
   .addqImm 1 .DI,
   .lab .leftover_loop_end, .cmpq .DI .DX, .jl .leftover_loop_body, .ret]

/-- `scalarMulSubToUint32AVX2`. math/vec/asm_vec_amd64.s:236-272. -/
def scalarMulSubToUint32AVX2 : Prog :=
  [.movqArg 0 .AX, .movqArg 24 .CX, .movqArg 8 .DX, .movq .DX .BX, .shrq 3 .BX, .shlq 3 .BX,
   .movlArg 48 .SI, .vbcastdArg 48 0, .xorq .DI .DI, .jmp .loop_end,
   .lab .loop_body, .vload ⟨.CX, some .DI, 4, 0⟩ 1, .v .VPMULLD 0 1 1, .vload ⟨.AX, some .DI, 4, 0⟩ 2,
   .v .VPSUBD 1 2 2, .vstore 2 ⟨.AX, some .DI, 4, 0⟩, .addqImm 8 .DI,
   .lab .loop_end, .cmpq .DI .BX, .jl .loop_body, .jmp .leftover_loop_end,
   .lab .leftover_loop_body, .movlLoad ⟨.CX, some .DI, 4, 0⟩ .BX, .imull .SI .BX,
   .movlLoad ⟨.AX, some .DI, 4, 0⟩ .R8, .subl .BX .R8, .movlStore .R8 ⟨.AX, some .DI, 4, 0⟩,
   .addqImm 1 .DI,
   .lab .leftover_loop_end, .cmpq .DI .DX, .jl .leftover_loop_body, .ret]

/-- `scalarMulToUint64AVX2`. math/vec/asm_vec_amd64.s:276-315. -/
def scalarMulToUint64AVX2 : Prog :=
  [.vbcastqConst 0xffffffff00000000 0, .movqArg 0 .AX, .movqArg 24 .CX, .movqArg 8 .DX, .movq .DX .BX,
   .shrq 2 .BX, .shlq 2 .BX, .movqArg 48 .SI, .vbcastqArg 48 1, .vimm .VPSHUFD 177 1 2, .xorq .DI .DI,
   .jmp .loop_end,
   .lab .loop_body, .vload ⟨.CX, some .DI, 8, 0⟩ 3, .v .VPMULUDQ 1 3 4, .v .VPMULLD 2 3 3,
   .vimm .VPSLLQ 32 3 5, .v .VPAND 0 3 3, .v .VPADDQ 5 3 3, .v .VPADDQ 4 3 3,
   .vstore 3 ⟨.AX, some .DI, 8, 0⟩, .addqImm 4 .DI,
   .lab .loop_end, .cmpq .DI .BX, .jl .loop_body, .jmp .leftover_loop_end,
   .lab .leftover_loop_body, .movqLoad ⟨.CX, some .DI, 8, 0⟩ .BX, .imulq .SI .BX,
   .movqStore .BX ⟨.AX, some .DI, 8, 0⟩, .addqImm 1 .DI,
   .lab .leftover_loop_end, .cmpq .DI .DX, .jl .leftover_loop_body, .ret]

/-- `scalarMulAddToUint64AVX2`. math/vec/asm_vec_amd64.s:319-362. -/
def scalarMulAddToUint64AVX2 : Prog :=
  [.vbcastqConst 0xffffffff00000000 0, .movqArg 0 .AX, .movqArg 24 .CX, .movqArg 8 .DX, .movq .DX .BX,
   .shrq 2 .BX, .shlq 2 .BX, .movqArg 48 .SI, .vbcastqArg 48 1, .vimm .VPSHUFD 177 1 2, .xorq .DI .DI,
   .jmp .loop_end,
   .lab .loop_body, .vload ⟨.CX, some .DI, 8, 0⟩ 3, .v .VPMULUDQ 1 3 4, .v .VPMULLD 2 3 3,
   .vimm .VPSLLQ 32 3 5, .v .VPAND 0 3 3, .v .VPADDQ 5 3 3, .v .VPADDQ 4 3 3,
   .vload ⟨.AX, some .DI, 8, 0⟩ 4, .v .VPADDQ 3 4 4, .vstore 4 ⟨.AX, some .DI, 8, 0⟩, .addqImm 4 .DI,
   .lab .loop_end, .cmpq .DI .BX, .jl .loop_body, .jmp .leftover_loop_end,
   .lab .leftover_loop_body, .movqLoad ⟨.CX, some .DI, 8, 0⟩ .BX, .imulq .SI .BX,
   .movqLoad ⟨.AX, some .DI, 8, 0⟩ .R8, .addq .BX .R8, .movqStore .R8 ⟨.AX, some .DI, 8, 0⟩,
   .addqImm 1 .DI,
   .lab .leftover_loop_end, .cmpq .DI .DX, .jl .leftover_loop_body, .ret]

/-- `scalarMulSubToUint64AVX2`. math/vec/asm_vec_amd64.s:366-409. -/
def scalarMulSubToUint64AVX2 : Prog :=
  [.vbcastqConst 0xffffffff00000000 0, .movqArg 0 .AX, .movqArg 24 .CX, .movqArg 8 .DX, .movq .DX .BX,
   .shrq 2 .BX, .shlq 2 .BX, .movqArg 48 .SI, .vbcastqArg 48 1, .vimm .VPSHUFD 177 1 2, .xorq .DI .DI,
   .jmp .loop_end,
   .lab .loop_body, .vload ⟨.CX, some .DI, 8, 0⟩ 3, .v .VPMULUDQ 1 3 4, .v .VPMULLD 2 3 3,
   .vimm .VPSLLQ 32 3 5, .v .VPAND 0 3 3, .v .VPADDQ 5 3 3, .v .VPADDQ 4 3 3,
   .vload ⟨.AX, some .DI, 8, 0⟩ 4, .v .VPSUBQ 3 4 4, .vstore 4 ⟨.AX, some .DI, 8, 0⟩, .addqImm 4 .DI,
   .lab .loop_end, .cmpq .DI .BX, .jl .loop_body, .jmp .leftover_loop_end,
   .lab .leftover_loop_body, .movqLoad ⟨.CX, some .DI, 8, 0⟩ .BX, .imulq .SI .BX,
   .movqLoad ⟨.AX, some .DI, 8, 0⟩ .R8, .subq .BX .R8, .movqStore .R8 ⟨.AX, some .DI, 8, 0⟩,
   .addqImm 1 .DI,
   .lab .leftover_loop_end, .cmpq .DI .DX, .jl .leftover_loop_body, .ret]

/-- `mulToUint32AVX2`. math/vec/asm_vec_amd64.s:413-446. -/
def mulToUint32AVX2 : Prog :=
  [.movqArg 0 .AX, .movqArg 24 .CX, .movqArg 48 .DX, .movqArg 8 .BX, .movq .BX .SI, .shrq 3 .SI,
   .shlq 3 .SI, .xorq .DI .DI, .jmp .loop_end,
   .lab .loop_body, .vload ⟨.CX, some .DI, 4, 0⟩ 0, .vload ⟨.DX, some .DI, 4, 0⟩ 1, .v .VPMULLD 1 0 0,
   .vstore 0 ⟨.AX, some .DI, 4, 0⟩, .addqImm 8 .DI,
   .lab .loop_end, .cmpq .DI .SI, .jl .loop_body, .jmp .leftover_loop_end,
   .lab .leftover_loop_body, .movlLoad ⟨.CX, some .DI, 4, 0⟩ .SI, .movlLoad ⟨.DX, some .DI, 4, 0⟩ .R8,
   .imull .R8 .SI, .movlStore .SI ⟨.AX, some .DI, 4, 0⟩, .addqImm 1 .DI,
   .lab .leftover_loop_end, .cmpq .DI .BX, .jl .leftover_loop_body, .ret]

/-- `mulAddToUint32AVX2`. math/vec/asm_vec_amd64.s:450-487. -/
def mulAddToUint32AVX2 : Prog :=
  [.movqArg 0 .AX, .movqArg 24 .CX, .movqArg 48 .DX, .movqArg 8 .BX, .movq .BX .SI, .shrq 3 .SI,
   .shlq 3 .SI, .xorq .DI .DI, .jmp .loop_end,
   .lab .loop_body, .vload ⟨.CX, some .DI, 4, 0⟩ 0, .vload ⟨.DX, some .DI, 4, 0⟩ 1, .v .VPMULLD 1 0 0,
   .vload ⟨.AX, some .DI, 4, 0⟩ 1, .v .VPADDD 0 1 1, .vstore 1 ⟨.AX, some .DI, 4, 0⟩, .addqImm 8 .DI,
   .lab .loop_end, .cmpq .DI .SI, .jl .loop_body, .jmp .leftover_loop_end,
   .lab .leftover_loop_body, .movlLoad ⟨.CX, some .DI, 4, 0⟩ .SI, .movlLoad ⟨.DX, some .DI, 4, 0⟩ .R8,
   .imull .R8 .SI, .movlLoad ⟨.AX, some .DI, 4, 0⟩ .R8, .addl .SI .R8,
   .movlStore .R8 ⟨.AX, some .DI, 4, 0⟩, .addqImm 1 .DI,
   .lab .leftover_loop_end, .cmpq .DI .BX, .jl .leftover_loop_body, .ret]

/-- `mulSubToUint32AVX2`. math/vec/asm_vec_amd64.s:491-528. -/
def mulSubToUint32AVX2 : Prog :=
  [.movqArg 0 .AX, .movqArg 24 .CX, .movqArg 48 .DX, .movqArg 8 .BX, .movq .BX .SI, .shrq 3 .SI,
   .shlq 3 .SI, .xorq .DI .DI, .jmp .loop_end,
   .lab .loop_body, .vload ⟨.CX, some .DI, 4, 0⟩ 0, .vload ⟨.DX, some .DI, 4, 0⟩ 1, .v .VPMULLD 1 0 0,
   .vload ⟨.AX, some .DI, 4, 0⟩ 1, .v .VPSUBD 0 1 1, .vstore 1 ⟨.AX, some .DI, 4, 0⟩, .addqImm 8 .DI,
   .lab .loop_end, .cmpq .DI .SI, .jl .loop_body, .jmp .leftover_loop_end,
   .lab .leftover_loop_body, .movlLoad ⟨.CX, some .DI, 4, 0⟩ .SI, .movlLoad ⟨.DX, some .DI, 4, 0⟩ .R8,
   .imull .R8 .SI, .movlLoad ⟨.AX, some .DI, 4, 0⟩ .R8, .subl .SI .R8,
   .movlStore .R8 ⟨.AX, some .DI, 4, 0⟩, .addqImm 1 .DI,
   .lab .leftover_loop_end, .cmpq .DI .BX, .jl .leftover_loop_body, .ret]

/-- `mulToUint64AVX2`. math/vec/asm_vec_amd64.s:532-572. -/
def mulToUint64AVX2 : Prog :=
  [.vbcastqConst 0xffffffff00000000 0, .movqArg 0 .AX, .movqArg 24 .CX, .movqArg 48 .DX, .movqArg 8 .BX,
   .movq .BX .SI, .shrq 2 .SI, .shlq 2 .SI, .xorq .DI .DI, .jmp .loop_end,
   .lab .loop_body, .vload ⟨.CX, some .DI, 8, 0⟩ 1, .vload ⟨.DX, some .DI, 8, 0⟩ 2, .vimm .VPSHUFD 177 1 3,
   .v .VPMULUDQ 1 2 1, .v .VPMULLD 3 2 2, .vimm .VPSLLQ 32 2 3, .v .VPAND 0 2 2, .v .VPADDQ 3 2 2,
   .v .VPADDQ 1 2 2, .vstore 2 ⟨.AX, some .DI, 8, 0⟩, .addqImm 4 .DI,
   .lab .loop_end, .cmpq .DI .SI, .jl .loop_body, .jmp .leftover_loop_end,
   .lab .leftover_loop_body, .movqLoad ⟨.CX, some .DI, 8, 0⟩ .SI, .movqLoad ⟨.DX, some .DI, 8, 0⟩ .R8,
   .imulq .R8 .SI, .movqStore .SI ⟨.AX, some .DI, 8, 0⟩, .addqImm 1 .DI,
   .lab .leftover_loop_end, .cmpq .DI .BX, .jl .leftover_loop_body, .ret]

/-- `mulAddToUint64AVX2`. math/vec/asm_vec_amd64.s:576-620. -/
def mulAddToUint64AVX2 : Prog :=
  [.vbcastqConst 0xffffffff00000000 0, .movqArg 0 .AX, .movqArg 24 .CX, .movqArg 48 .DX, .movqArg 8 .BX,
   .movq .BX .SI, .shrq 2 .SI, .shlq 2 .SI, .xorq .DI .DI, .jmp .loop_end,
   .lab .loop_body, .vload ⟨.CX, some .DI, 8, 0⟩ 1, .vload ⟨.DX, some .DI, 8, 0⟩ 2, .vimm .VPSHUFD 177 1 3,
   .v .VPMULUDQ 1 2 1, .v .VPMULLD 3 2 2, .vimm .VPSLLQ 32 2 3, .v .VPAND 0 2 2, .v .VPADDQ 3 2 2,
   .v .VPADDQ 1 2 2, .vload ⟨.AX, some .DI, 8, 0⟩ 1, .v .VPADDQ 2 1 1, .vstore 1 ⟨.AX, some .DI, 8, 0⟩,
   .addqImm 4 .DI,
   .lab .loop_end, .cmpq .DI .SI, .jl .loop_body, .jmp .leftover_loop_end,
   .lab .leftover_loop_body, .movqLoad ⟨.CX, some .DI, 8, 0⟩ .SI, .movqLoad ⟨.DX, some .DI, 8, 0⟩ .R8,
   .imulq .R8 .SI, .movqLoad ⟨.AX, some .DI, 8, 0⟩ .R8, .addq .SI .R8,
   .movqStore .R8 ⟨.AX, some .DI, 8, 0⟩, .addqImm 1 .DI,
   .lab .leftover_loop_end, .cmpq .DI .BX, .jl .leftover_loop_body, .ret]

/-- `mulSubToUint64AVX2`. math/vec/asm_vec_amd64.s:624-668. -/
def mulSubToUint64AVX2 : Prog :=
  [.vbcastqConst 0xffffffff00000000 0, .movqArg 0 .AX, .movqArg 24 .CX, .movqArg 48 .DX, .movqArg 8 .BX,
   .movq .BX .SI, .shrq 2 .SI, .shlq 2 .SI, .xorq .DI .DI, .jmp .loop_end,
   .lab .loop_body, .vload ⟨.CX, some .DI, 8, 0⟩ 1, .vload ⟨.DX, some .DI, 8, 0⟩ 2, .vimm .VPSHUFD 177 1 3,
   .v .VPMULUDQ 1 2 1, .v .VPMULLD 3 2 2, .vimm .VPSLLQ 32 2 3, .v .VPAND 0 2 2, .v .VPADDQ 3 2 2,
   .v .VPADDQ 1 2 2, .vload ⟨.AX, some .DI, 8, 0⟩ 1, .v .VPSUBQ 2 1 1, .vstore 1 ⟨.AX, some .DI, 8, 0⟩,
   .addqImm 4 .DI,
   .lab .loop_end, .cmpq .DI .SI, .jl .loop_body, .jmp .leftover_loop_end,
   .lab .leftover_loop_body, .movqLoad ⟨.CX, some .DI, 8, 0⟩ .SI, .movqLoad ⟨.DX, some .DI, 8, 0⟩ .R8,
   .imulq .R8 .SI, .movqLoad ⟨.AX, some .DI, 8, 0⟩ .R8, .subq .SI .R8,
   .movqStore .R8 ⟨.AX, some .DI, 8, 0⟩, .addqImm 1 .DI,
   .lab .leftover_loop_end, .cmpq .DI .BX, .jl .leftover_loop_body, .ret]

end Asm
end Tfhe
