import Verif.Model.Gadget
import Verif.Model.Encoder

/-!
# Model of parameter compilation

`tfhe/params.go`, `mktfhe/params.go`, `xtfhe/manylut_params.go` and `xtfhe/sanitization_params.go`.

A Go `int` is `BitVec 64`, read as a signed number where the code compares; a `float64` standard
deviation is its 64-bit pattern.  `none` is a panic.  The compiled fields `logQ`, `floatQ` and
`sizeT` depend on the word size only and are left out.
-/
namespace Tfhe

/-- `num.IsPowerOfTwo` for a Go `int`. math/num/num.go:114-116. -/
def isPowerOfTwoInt (x : BitVec 64) : Bool :=
  decide (0 < x.toInt) && ((x &&& (x - 1#64)) == 0#64)

/-- Whether a `float64` is not a number (IEEE 754: maximal exponent, non-zero fraction). -/
def f64IsNaN (x : BitVec 64) : Bool := decide (0x7FF0000000000000 < x.toNat % 2 ^ 63)

/-- The Go comparison `x <= 0` of a `float64`; false for a NaN. -/
def f64LeZero (x : BitVec 64) : Bool := !f64IsNaN x && (x.msb || x == 0#64)

/-- `GadgetParametersLiteral[T]`. tfhe/params.go:20-25. -/
structure GadgetLit (w : ℕ) where
  base : BitVec w
  level : BitVec 64
deriving DecidableEq

/-- `GadgetParametersLiteral.Compile`; the product `Log2(Base)*Level` is a Go `int`.
tfhe/params.go:41-59. -/
def GadgetLit.compile {w : ℕ} (p : GadgetLit w) : Option (GadgetParams w) :=
  if p.base.toNat < 2 then none
  else if !isPowerOfTwo p.base then none
  else if p.level.toInt ≤ 0 then none
  else (log2 p.base.toNat).bind fun logBase =>
    if (w : ℤ) < (BitVec.ofNat 64 logBase * p.level).toInt then none
    else some { base := p.base, logBase := logBase, level := p.level.toNat }

/-- `GadgetParameters.Literal`. tfhe/params.go:121-126. -/
def GadgetParams.literal {w : ℕ} (g : GadgetParams w) : GadgetLit w :=
  { base := g.base, level := BitVec.ofNat 64 g.level }

/-- `ParametersLiteral[T]`. tfhe/params.go:241-300. -/
structure ParamsLit (w : ℕ) where
  lweDimension : BitVec 64
  glweRank : BitVec 64
  polyRank : BitVec 64
  lutSize : BitVec 64
  lweStdDev : BitVec 64
  glweStdDev : BitVec 64
  blockSize : BitVec 64
  messageModulus : BitVec w
  blindRotateParams : GadgetLit w
  keySwitchParams : GadgetLit w
  bootstrapOrder : BitVec 64
deriving DecidableEq

/-- `Parameters[T]`. tfhe/params.go:440-485. -/
structure Params (w : ℕ) where
  lweDimension : BitVec 64
  glweDimension : BitVec 64
  glweRank : BitVec 64
  polyRank : BitVec 64
  logPolyRank : ℕ
  lutSize : BitVec 64
  lutExtendFactor : BitVec 64
  lweStdDev : BitVec 64
  glweStdDev : BitVec 64
  blockSize : BitVec 64
  blockCount : BitVec 64
  messageModulus : BitVec w
  scale : BitVec w
  blindRotateParams : GadgetParams w
  keySwitchParams : GadgetParams w
  bootstrapOrder : BitVec 64
deriving DecidableEq

/-- The defaults of `ParametersLiteral.Compile`. tfhe/params.go:379-384. -/
def ParamsLit.defaults {w : ℕ} (p : ParamsLit w) : ParamsLit w :=
  { p with
    lutSize := if p.lutSize = 0 then p.polyRank else p.lutSize
    blockSize := if p.blockSize = 0 then 1 else p.blockSize }

/-- The checks of `ParametersLiteral.Compile`, after the defaults, in order; `true` is a panic.  A
division by a zero `PolyRank` is a panic as well. tfhe/params.go:386-409. -/
def ParamsLit.bad {w : ℕ} (p : ParamsLit w) : Bool :=
  if p.lweDimension.toInt ≤ 0 then true
  else if (p.glweRank * p.polyRank).toInt < p.lweDimension.toInt then true
  else if p.glweRank.toInt ≤ 0 then true
  else if p.lutSize.toInt < p.polyRank.toInt then true
  else if f64LeZero p.lweStdDev then true
  else if f64LeZero p.glweStdDev then true
  else if p.blockSize.toInt ≤ 0 then true
  else if p.lweDimension.srem p.blockSize ≠ 0 then true
  else if p.polyRank = 0 then true
  else if p.lutSize.srem p.polyRank ≠ 0 then true
  else if !isPowerOfTwoInt p.polyRank then true
  else !(p.bootstrapOrder == 0 || p.bootstrapOrder == 1)

/-- `ParametersLiteral.Compile`.  `impl` is the implementation-specific result of converting `+Inf`
to `T`, which is the scale when the message modulus is zero. tfhe/params.go:378-437. -/
def ParamsLit.compile {w : ℕ} (impl : BitVec w) (lit : ParamsLit w) : Option (Params w) :=
  let p := lit.defaults
  if p.bad then none
  else (log2 p.polyRank.toInt).bind fun logPolyRank =>
    p.blindRotateParams.compile.bind fun br =>
    p.keySwitchParams.compile.bind fun ks =>
    some
      { lweDimension := p.lweDimension
        glweDimension := p.glweRank * p.polyRank
        glweRank := p.glweRank
        polyRank := p.polyRank
        logPolyRank := logPolyRank
        lutSize := p.lutSize
        lutExtendFactor := p.lutSize.sdiv p.polyRank
        lweStdDev := p.lweStdDev
        glweStdDev := p.glweStdDev
        blockSize := p.blockSize
        blockCount := p.lweDimension.sdiv p.blockSize
        messageModulus := p.messageModulus
        scale := ((compileScale w p.messageModulus.toNat).map (BitVec.ofNat w)).getD impl
        blindRotateParams := br
        keySwitchParams := ks
        bootstrapOrder := p.bootstrapOrder }

/-- `Parameters.Literal`. tfhe/params.go:629-648. -/
def Params.literal {w : ℕ} (p : Params w) : ParamsLit w :=
  { lweDimension := p.lweDimension
    glweRank := p.glweRank
    polyRank := p.polyRank
    lutSize := p.lutSize
    lweStdDev := p.lweStdDev
    glweStdDev := p.glweStdDev
    blockSize := p.blockSize
    messageModulus := p.messageModulus
    blindRotateParams := p.blindRotateParams.literal
    keySwitchParams := p.keySwitchParams.literal
    bootstrapOrder := p.bootstrapOrder }

/-- `DefaultLWEDimension`. tfhe/params.go:490-495. -/
def Params.defaultLWEDimension {w : ℕ} (p : Params w) : BitVec 64 :=
  if p.bootstrapOrder = 1 then p.lweDimension else p.glweDimension

/-- `mktfhe.ParametersLiteral[T]`. mktfhe/params.go:22-33. -/
structure MKParamsLit (w : ℕ) where
  subParams : ParamsLit w
  partyCount : BitVec 64
  accumulatorParams : GadgetLit w
  relinKeyParams : GadgetLit w
deriving DecidableEq

/-- `mktfhe.Parameters[T]`. mktfhe/params.go:140-152. -/
structure MKParams (w : ℕ) where
  subParams : Params w
  partyCount : BitVec 64
  accumulatorParams : GadgetParams w
  relinKeyParams : GadgetParams w
deriving DecidableEq

/-- `mktfhe.ParametersLiteral.Compile`. mktfhe/params.go:117-137. -/
def MKParamsLit.compile {w : ℕ} (impl : BitVec w) (p : MKParamsLit w) : Option (MKParams w) :=
  (p.subParams.compile impl).bind fun sub =>
    if p.partyCount.toInt ≤ 0 then none
    else if sub.glweRank ≠ 1 then none
    else if sub.lutSize ≠ sub.polyRank then none
    else p.accumulatorParams.compile.bind fun acc =>
      p.relinKeyParams.compile.bind fun relin =>
      some { subParams := sub, partyCount := p.partyCount, accumulatorParams := acc,
             relinKeyParams := relin }

/-- `mktfhe.Parameters.Literal`. mktfhe/params.go:284-293. -/
def MKParams.literal {w : ℕ} (p : MKParams w) : MKParamsLit w :=
  { subParams := p.subParams.literal
    partyCount := p.partyCount
    accumulatorParams := p.accumulatorParams.literal
    relinKeyParams := p.relinKeyParams.literal }

/-- `ManyLUTParametersLiteral[T]`. xtfhe/manylut_params.go:11-18. -/
structure ManyLUTLit (w : ℕ) where
  baseParams : ParamsLit w
  lutCount : BitVec 64
deriving DecidableEq

/-- `ManyLUTParameters[T]`. xtfhe/manylut_params.go:42-51. -/
structure ManyLUTParams (w : ℕ) where
  baseParams : Params w
  lutCount : BitVec 64
  logLUTCount : ℕ
deriving DecidableEq

/-- `ManyLUTParametersLiteral.Compile`. xtfhe/manylut_params.go:23-39. -/
def ManyLUTLit.compile {w : ℕ} (impl : BitVec w) (p : ManyLUTLit w) : Option (ManyLUTParams w) :=
  (p.baseParams.compile impl).bind fun base =>
    if base.polyRank ≠ base.lutSize then none
    else if !isPowerOfTwoInt p.lutCount then none
    else (log2 p.lutCount.toInt).bind fun logLUTCount =>
      some { baseParams := base, lutCount := p.lutCount, logLUTCount := logLUTCount }

/-- `SanitizationParametersLiteral[T]`. xtfhe/sanitization_params.go:11-28. -/
structure SanitizationLit (w : ℕ) where
  baseParams : ParamsLit w
  randSigma : BitVec 64
  randTau : BitVec 64
  linEvalSigma : BitVec 64
  linEvalTau : BitVec 64
deriving DecidableEq

/-- `SanitizationParametersLiteral.Compile`; the compiled parameters hold the same fields as the
literal, with the base parameters compiled. xtfhe/sanitization_params.go:33-64. -/
def SanitizationLit.compile {w : ℕ} (impl : BitVec w) (p : SanitizationLit w) :
    Option (Params w) :=
  (p.baseParams.compile impl).bind fun base =>
    if base.glweRank ≠ 1 then none
    else if base.polyRank ≠ base.lutSize then none
    else if base.bootstrapOrder ≠ 0 then none
    else if f64LeZero p.randSigma then none
    else if f64LeZero p.randTau then none
    else if f64LeZero p.linEvalSigma then none
    else if f64LeZero p.linEvalTau then none
    else some base

/-- The checks of `poly.NewPoly` and `poly.NewFFTPoly` (`MinRank` is 16); `none` is a panic.
math/poly/poly.go:19-28. -/
def newPolyRank (N : BitVec 64) : Option ℕ :=
  if !isPowerOfTwoInt N then none
  else if N.toInt < 16 then none
  else some N.toNat

end Tfhe
