import Verif.Model.Params
import Verif.Model.Gaussian

/-!
# Model of the published parameter sets

`tfhe/params_list.go`, `mktfhe/params_list.go` and the lists of `xtfhe`, with the decimal constants as they stand in the source.
Also the compilation of circuit bootstrapping and FHEW parameters, `xtfhe/circuit_bootstrap_params.go` and
`xtfhe/fhew_params.go`.  The lists are transcribed by a script from the source.
-/
namespace Tfhe

/-- `floor (log2 (n / d))` for positive `n` and `d`. -/
def ratLog2 (n d : ℕ) : ℤ :=
  let e : ℤ := (n.log2 : ℤ) - d.log2
  if 0 ≤ e then (if d * 2 ^ e.toNat ≤ n then e else e - 1) else (if d ≤ n * 2 ^ (-e).toNat then e else e - 1)

/-- Division with rounding to nearest, ties to even. -/
def f64Round (n d : ℕ) : ℕ :=
  let q := n / d
  let r := n % d
  if 2 * r < d then q else if d < 2 * r then q + 1 else if q % 2 = 0 then q else q + 1

/-- The bits of the `float64` nearest to a positive constant in the normal range, ties to even: what the compiler stores for a
decimal constant. -/
def f64 (x : ℚ) : BitVec 64 :=
  let n := x.num.toNat
  let d := x.den
  let e := ratLog2 n d
  let m := if e ≤ 52 then f64Round (n * 2 ^ (52 - e).toNat) d else f64Round n (d * 2 ^ (e - 52).toNat)
  BitVec.ofNat 64 ((e + 1022).toNat * 2 ^ 52 + m)

/-- The fraction and exponent of a finite `float64`: its value is `± m * 2^(e - 1074)`. -/
def f64Parts (x : BitVec 64) : ℕ × ℕ :=
  let ex := x.toNat / 2 ^ 52 % 2 ^ 11
  let fr := x.toNat % 2 ^ 52
  if ex = 0 then (fr, 0) else (2 ^ 52 + fr, ex - 1)

/-- The value of a finite `float64`. -/
def f64Val (x : BitVec 64) : ℚ :=
  (if x.msb then -1 else 1) * ((f64Parts x).1 * 2 ^ (f64Parts x).2 / 2 ^ 1074)

/-- The value of any `float64`. -/
noncomputable def f64Ext (x : BitVec 64) : Gauss.Ext :=
  if f64IsNaN x then .nan
  else if x.toNat % 2 ^ 63 = 0x7FF0000000000000 then .inf x.msb
  else .fin (f64Val x : ℚ)

/-- `CircuitBootstrapParametersLiteral[T]`. xtfhe/circuit_bootstrap_params.go:8-18. -/
structure CircuitBootstrapLit (w : ℕ) where
  manyLUTParams : ManyLUTLit w
  schemeSwitchParams : GadgetLit w
  traceKeySwitchParams : GadgetLit w
  outputParams : GadgetLit w
deriving DecidableEq

/-- `CircuitBootstrapParameters[T]`. xtfhe/circuit_bootstrap_params.go:34-44. -/
structure CircuitBootstrapParams (w : ℕ) where
  manyLUTParams : ManyLUTParams w
  schemeSwitchParams : GadgetParams w
  traceKeySwitchParams : GadgetParams w
  outputParams : GadgetParams w
deriving DecidableEq

/-- `CircuitBootstrapParametersLiteral.Compile`. xtfhe/circuit_bootstrap_params.go:23-31. -/
def CircuitBootstrapLit.compile {w : ℕ} (impl : BitVec w) (p : CircuitBootstrapLit w) : Option (CircuitBootstrapParams w) :=
  (p.manyLUTParams.compile impl).bind fun m =>
    p.schemeSwitchParams.compile.bind fun s =>
    p.traceKeySwitchParams.compile.bind fun t =>
    p.outputParams.compile.bind fun o =>
    some { manyLUTParams := m, schemeSwitchParams := s, traceKeySwitchParams := t, outputParams := o }

/-- `FHEWParametersLiteral[T]`. xtfhe/fhew_params.go:13-23. -/
structure FHEWLit (w : ℕ) where
  baseParams : ParamsLit w
  secretKeyStdDev : BitVec 64
  windowSize : BitVec 64
deriving DecidableEq

/-- `FHEWParameters[T]`. xtfhe/fhew_params.go:55-65. -/
structure FHEWParams (w : ℕ) where
  baseParams : Params w
  secretKeyStdDev : BitVec 64
  windowSize : BitVec 64
deriving DecidableEq

/-- `math.Log2`, with `log2` its value at a positive finite number. -/
noncomputable def Gauss.Ext.log2 (log2 : ℝ → ℝ) : Gauss.Ext → Gauss.Ext
  | .fin x => if 0 < x then .fin (log2 x) else if x = 0 then .inf true else .nan
  | .inf false => .inf false
  | _ => .nan

/-- The Go comparison `x > c` of `float64`; false for a NaN. -/
def Gauss.Ext.gtReal : Gauss.Ext → ℝ → Prop
  | .fin x, c => c < x
  | .inf false, _ => True
  | _, _ => False

/-- The comparison that rejects a standard deviation of the key: `GaussianTailCut` is 12 (xtfhe/sanitization_sampler.go:17),
`ShortLogBound` is 8.  xtfhe/fhew_params.go:31-32, 40. -/
noncomputable def fhewTooLarge (M : Gauss.Libm) (log2 : ℝ → ℝ) (w : ℕ) (stdDev : BitVec 64) : Prop :=
  (Gauss.Ext.add M (Gauss.Ext.add M (Gauss.Ext.log2 log2 (f64Ext stdDev)) (.fin w)) (Gauss.Ext.log2 log2 (.fin 12))).gtReal 8

open Classical in
/-- `FHEWParametersLiteral.Compile`.  xtfhe/fhew_params.go:28-52. -/
noncomputable def FHEWLit.compile {w : ℕ} (M : Gauss.Libm) (log2 : ℝ → ℝ) (impl : BitVec w) (p : FHEWLit w) :
    Option (FHEWParams w) :=
  (p.baseParams.compile impl).bind fun base =>
    if base.blockSize ≠ 1 then none
    else if base.polyRank ≠ base.lutSize then none
    else if f64LeZero p.secretKeyStdDev then none
    else if fhewTooLarge M log2 w p.secretKeyStdDev then none
    else if p.windowSize.toInt ≤ 0 then none
    else some { baseParams := base, secretKeyStdDev := p.secretKeyStdDev, windowSize := p.windowSize }

/-- A product of a standard deviation and `Q = 2^w`, rounded, for a finite standard deviation.  tfhe/params.go:547-552, 563-565,
576-578, xtfhe/fhew_params.go:81-83. -/
noncomputable def stdDevQ (M : Gauss.Libm) (w : ℕ) (stdDev : BitVec 64) : ℝ := M.fl ((f64Val stdDev : ℚ) * 2 ^ w)

/-- `DefaultLWEStdDev`. tfhe/params.go:539-544. -/
def Params.defaultLWEStdDev {w : ℕ} (p : Params w) : BitVec 64 :=
  if p.bootstrapOrder = 1 then p.lweStdDev else p.glweStdDev

namespace Published

/-- `ParamsBinary`. tfhe/params_list.go:5-28. -/
def paramsBinary : ParamsLit 32 :=
  { lweDimension := 687, glweRank := 2, polyRank := 512, lutSize := 512,
    lweStdDev := f64 0.00002120846893069971872305794214, glweStdDev := f64 0.00000002685935683878752834630074,
    blockSize := 3, messageModulus := 1 <<< 1,
    blindRotateParams := { base := 1 <<< 6, level := 3 },
    keySwitchParams := { base := 1 <<< 3, level := 4 },
    bootstrapOrder := 1 }

/-- `ParamsBinaryCompact`. tfhe/params_list.go:32-55. -/
def paramsBinaryCompact : ParamsLit 32 :=
  { lweDimension := 687, glweRank := 2, polyRank := 512, lutSize := 512,
    lweStdDev := f64 0.00002120846893069971872305794214, glweStdDev := f64 0.00000002685935683878752834630074,
    blockSize := 3, messageModulus := 1 <<< 1,
    blindRotateParams := { base := 1 <<< 6, level := 3 },
    keySwitchParams := { base := 1 <<< 4, level := 3 },
    bootstrapOrder := 0 }

/-- `ParamsBinaryOriginal`. tfhe/params_list.go:58-78. -/
def paramsBinaryOriginal : ParamsLit 32 :=
  { lweDimension := 630, glweRank := 1, polyRank := 1024, lutSize := 0,
    lweStdDev := f64 0.000030517578125, glweStdDev := f64 0.0000000298023223876953125,
    blockSize := 0, messageModulus := 1 <<< 1,
    blindRotateParams := { base := 1 <<< 7, level := 3 },
    keySwitchParams := { base := 1 <<< 2, level := 8 },
    bootstrapOrder := 1 }

/-- `ParamsUint2`. tfhe/params_list.go:81-104. -/
def paramsUint2 : ParamsLit 64 :=
  { lweDimension := 687, glweRank := 3, polyRank := 512, lutSize := 512,
    lweStdDev := f64 0.00002120846893069971872305794214, glweStdDev := f64 0.00000000000231841227527049948463,
    blockSize := 3, messageModulus := 1 <<< 2,
    blindRotateParams := { base := 1 <<< 18, level := 1 },
    keySwitchParams := { base := 1 <<< 4, level := 3 },
    bootstrapOrder := 0 }

/-- `ParamsUint3`. tfhe/params_list.go:107-130. -/
def paramsUint3 : ParamsLit 64 :=
  { lweDimension := 820, glweRank := 2, polyRank := 1024, lutSize := 1024,
    lweStdDev := f64 0.00000251676160959795544987084234, glweStdDev := f64 0.00000000000000022204460492503131,
    blockSize := 4, messageModulus := 1 <<< 3,
    blindRotateParams := { base := 1 <<< 23, level := 1 },
    keySwitchParams := { base := 1 <<< 6, level := 2 },
    bootstrapOrder := 0 }

/-- `ParamsUint4`. tfhe/params_list.go:133-156. -/
def paramsUint4 : ParamsLit 64 :=
  { lweDimension := 820, glweRank := 1, polyRank := 2048, lutSize := 2048,
    lweStdDev := f64 0.00000251676160959795544987084234, glweStdDev := f64 0.00000000000000022204460492503131,
    blockSize := 4, messageModulus := 1 <<< 4,
    blindRotateParams := { base := 1 <<< 22, level := 1 },
    keySwitchParams := { base := 1 <<< 5, level := 3 },
    bootstrapOrder := 0 }

/-- `ParamsUint5`. tfhe/params_list.go:159-182. -/
def paramsUint5 : ParamsLit 64 :=
  { lweDimension := 1071, glweRank := 1, polyRank := 2048, lutSize := 2048,
    lweStdDev := f64 0.00000007088226765410429399593757, glweStdDev := f64 0.00000000000000022204460492503131,
    blockSize := 7, messageModulus := 1 <<< 5,
    blindRotateParams := { base := 1 <<< 22, level := 1 },
    keySwitchParams := { base := 1 <<< 6, level := 3 },
    bootstrapOrder := 0 }

/-- `ParamsUint6`. tfhe/params_list.go:185-208. -/
def paramsUint6 : ParamsLit 64 :=
  { lweDimension := 1071, glweRank := 1, polyRank := 2048, lutSize := 4096,
    lweStdDev := f64 0.00000007088226765410429399593757, glweStdDev := f64 0.00000000000000022204460492503131,
    blockSize := 7, messageModulus := 1 <<< 6,
    blindRotateParams := { base := 1 <<< 22, level := 1 },
    keySwitchParams := { base := 1 <<< 6, level := 3 },
    bootstrapOrder := 0 }

/-- `ParamsUint7`. tfhe/params_list.go:211-234. -/
def paramsUint7 : ParamsLit 64 :=
  { lweDimension := 1160, glweRank := 1, polyRank := 2048, lutSize := 8192,
    lweStdDev := f64 0.00000001966220007498402695211596, glweStdDev := f64 0.00000000000000022204460492503131,
    blockSize := 8, messageModulus := 1 <<< 7,
    blindRotateParams := { base := 1 <<< 22, level := 1 },
    keySwitchParams := { base := 1 <<< 7, level := 3 },
    bootstrapOrder := 0 }

/-- `ParamsUint8`. tfhe/params_list.go:237-260. -/
def paramsUint8 : ParamsLit 64 :=
  { lweDimension := 1160, glweRank := 1, polyRank := 2048, lutSize := 18432,
    lweStdDev := f64 0.00000001966220007498402695211596, glweStdDev := f64 0.00000000000000022204460492503131,
    blockSize := 8, messageModulus := 1 <<< 8,
    blindRotateParams := { base := 1 <<< 22, level := 1 },
    keySwitchParams := { base := 1 <<< 7, level := 3 },
    bootstrapOrder := 0 }

/-- `ParamsBinaryParty2`. mktfhe/params_list.go:7-42. -/
def paramsBinaryParty2 : MKParamsLit 64 :=
  { subParams :=
      { lweDimension := 560, glweRank := 1, polyRank := 2048, lutSize := 0,
        lweStdDev := f64 0.0000305, glweStdDev := f64 0.00000000000000000463,
        blockSize := 2, messageModulus := 1 <<< 1,
        blindRotateParams := { base := 1 <<< 12, level := 3 },
        keySwitchParams := { base := 1 <<< 2, level := 8 },
        bootstrapOrder := 1 },
    partyCount := 2,
    accumulatorParams := { base := 1 <<< 6, level := 2 },
    relinKeyParams := { base := 1 <<< 10, level := 3 } }

/-- `ParamsBinaryParty4`. mktfhe/params_list.go:45-80. -/
def paramsBinaryParty4 : MKParamsLit 64 :=
  { subParams :=
      { lweDimension := 560, glweRank := 1, polyRank := 2048, lutSize := 0,
        lweStdDev := f64 0.0000305, glweStdDev := f64 0.00000000000000000463,
        blockSize := 2, messageModulus := 1 <<< 1,
        blindRotateParams := { base := 1 <<< 8, level := 5 },
        keySwitchParams := { base := 1 <<< 2, level := 8 },
        bootstrapOrder := 1 },
    partyCount := 4,
    accumulatorParams := { base := 1 <<< 8, level := 2 },
    relinKeyParams := { base := 1 <<< 6, level := 7 } }

/-- `ParamsBinaryParty8`. mktfhe/params_list.go:83-118. -/
def paramsBinaryParty8 : MKParamsLit 64 :=
  { subParams :=
      { lweDimension := 560, glweRank := 1, polyRank := 2048, lutSize := 0,
        lweStdDev := f64 0.0000305, glweStdDev := f64 0.00000000000000000463,
        blockSize := 2, messageModulus := 1 <<< 1,
        blindRotateParams := { base := 1 <<< 9, level := 4 },
        keySwitchParams := { base := 1 <<< 2, level := 8 },
        bootstrapOrder := 1 },
    partyCount := 8,
    accumulatorParams := { base := 1 <<< 6, level := 3 },
    relinKeyParams := { base := 1 <<< 4, level := 8 } }

/-- `ParamsBinaryParty16`. mktfhe/params_list.go:121-156. -/
def paramsBinaryParty16 : MKParamsLit 64 :=
  { subParams :=
      { lweDimension := 560, glweRank := 1, polyRank := 2048, lutSize := 0,
        lweStdDev := f64 0.0000305, glweStdDev := f64 0.00000000000000000463,
        blockSize := 2, messageModulus := 1 <<< 1,
        blindRotateParams := { base := 1 <<< 8, level := 5 },
        keySwitchParams := { base := 1 <<< 2, level := 8 },
        bootstrapOrder := 1 },
    partyCount := 16,
    accumulatorParams := { base := 1 <<< 6, level := 3 },
    relinKeyParams := { base := 1 <<< 4, level := 9 } }

/-- `ParamsBinaryParty32`. mktfhe/params_list.go:159-194. -/
def paramsBinaryParty32 : MKParamsLit 64 :=
  { subParams :=
      { lweDimension := 560, glweRank := 1, polyRank := 2048, lutSize := 0,
        lweStdDev := f64 0.0000305, glweStdDev := f64 0.00000000000000000463,
        blockSize := 2, messageModulus := 1 <<< 1,
        blindRotateParams := { base := 1 <<< 7, level := 6 },
        keySwitchParams := { base := 1 <<< 2, level := 8 },
        bootstrapOrder := 1 },
    partyCount := 32,
    accumulatorParams := { base := 1 <<< 7, level := 3 },
    relinKeyParams := { base := 1 <<< 2, level := 16 } }

/-- `ParamsBinaryLUT2`. xtfhe/manylut_params_list.go:7-34. -/
def paramsBinaryLUT2 : ManyLUTLit 32 :=
  { baseParams :=
      { lweDimension := 687, glweRank := 1, polyRank := 1024, lutSize := 1024,
        lweStdDev := f64 0.00002024849643226141, glweStdDev := f64 0.0000000444843247619562,
        blockSize := 3, messageModulus := 1 <<< 1,
        blindRotateParams := { base := 1 <<< 6, level := 3 },
        keySwitchParams := { base := 1 <<< 3, level := 4 },
        bootstrapOrder := 1 },
    lutCount := 2 }

/-- `ParamsBinaryCompactLUT2`. xtfhe/manylut_params_list.go:38-65. -/
def paramsBinaryCompactLUT2 : ManyLUTLit 32 :=
  { baseParams :=
      { lweDimension := 687, glweRank := 1, polyRank := 1024, lutSize := 1024,
        lweStdDev := f64 0.00002024849643226141, glweStdDev := f64 0.0000000444843247619562,
        blockSize := 3, messageModulus := 1 <<< 1,
        blindRotateParams := { base := 1 <<< 6, level := 3 },
        keySwitchParams := { base := 1 <<< 4, level := 3 },
        bootstrapOrder := 0 },
    lutCount := 2 }

/-- `ParamsUint2LUT4`. xtfhe/manylut_params_list.go:68-95. -/
def paramsUint2LUT4 : ManyLUTLit 64 :=
  { baseParams :=
      { lweDimension := 804, glweRank := 1, polyRank := 2048, lutSize := 2048,
        lweStdDev := f64 0.000002433797421598353, glweStdDev := f64 0.0000000000000003472576015484159,
        blockSize := 4, messageModulus := 1 <<< 2,
        blindRotateParams := { base := 1 <<< 23, level := 1 },
        keySwitchParams := { base := 1 <<< 6, level := 2 },
        bootstrapOrder := 0 },
    lutCount := 4 }

/-- `ParamsUint3LUT2`. xtfhe/manylut_params_list.go:98-126. -/
def paramsUint3LUT2 : ManyLUTLit 64 :=
  { baseParams :=
      { lweDimension := 804, glweRank := 1, polyRank := 2048, lutSize := 2048,
        lweStdDev := f64 0.000002433797421598353, glweStdDev := f64 0.0000000000000003472576015484159,
        blockSize := 4, messageModulus := 1 <<< 3,
        blindRotateParams := { base := 1 <<< 23, level := 1 },
        keySwitchParams := { base := 1 <<< 6, level := 2 },
        bootstrapOrder := 0 },
    lutCount := 2 }

/-- `ParamsCircuitBootstrapMedium`. xtfhe/circuit_bootstrap_params_list.go:8-47. -/
def paramsCircuitBootstrapMedium : CircuitBootstrapLit 64 :=
  { manyLUTParams :=
      { baseParams :=
          { lweDimension := 571, glweRank := 1, polyRank := 2048, lutSize := 0,
            lweStdDev := f64 0.00016996595057126976, glweStdDev := f64 0.0000000000000003472576015484159,
            blockSize := 0, messageModulus := 1 <<< 1,
            blindRotateParams := { base := 1 <<< 15, level := 2 },
            keySwitchParams := { base := 1 <<< 2, level := 5 },
            bootstrapOrder := 1 },
        lutCount := 4 },
    schemeSwitchParams := { base := 1 <<< 17, level := 2 },
    traceKeySwitchParams := { base := 1 <<< 13, level := 3 },
    outputParams := { base := 1 <<< 4, level := 4 } }

/-- `ParamsCircuitBootstrapLarge`. xtfhe/circuit_bootstrap_params_list.go:51-90. -/
def paramsCircuitBootstrapLarge : CircuitBootstrapLit 64 :=
  { manyLUTParams :=
      { baseParams :=
          { lweDimension := 571, glweRank := 1, polyRank := 2048, lutSize := 0,
            lweStdDev := f64 0.00016996595057126976, glweStdDev := f64 0.0000000000000003472576015484159,
            blockSize := 0, messageModulus := 1 <<< 1,
            blindRotateParams := { base := 1 <<< 15, level := 2 },
            keySwitchParams := { base := 1 <<< 2, level := 5 },
            bootstrapOrder := 1 },
        lutCount := 4 },
    schemeSwitchParams := { base := 1 <<< 17, level := 2 },
    traceKeySwitchParams := { base := 1 <<< 8, level := 6 },
    outputParams := { base := 1 <<< 5, level := 4 } }

/-- `ParamsFHEWBinary`. xtfhe/fhew_params_list.go:7-33. -/
def paramsFHEWBinary : FHEWLit 64 :=
  { baseParams :=
      { lweDimension := 447, glweRank := 1, polyRank := 1024, lutSize := 0,
        lweStdDev := f64 0.000143051147460938, glweStdDev := f64 0.00000000393811205889363,
        blockSize := 0, messageModulus := 1 <<< 1,
        blindRotateParams := { base := 1 <<< 10, level := 3 },
        keySwitchParams := { base := 1 <<< 3, level := 4 },
        bootstrapOrder := 1 },
    secretKeyStdDev := f64 0.00000000000000000017347234759768072, windowSize := 10 }

/-- `ParamsSanitizeBinary`. xtfhe/sanitization_params_list.go:7-36. -/
def paramsSanitizeBinary : SanitizationLit 64 :=
  { baseParams :=
      { lweDimension := 612, glweRank := 1, polyRank := 2048, lutSize := 0,
        lweStdDev := f64 0.00007905932600864546, glweStdDev := f64 0.0000000000000003472576015484159,
        blockSize := 1, messageModulus := 1 <<< 1,
        blindRotateParams := { base := 1 <<< 11, level := 3 },
        keySwitchParams := { base := 1 <<< 3, level := 4 },
        bootstrapOrder := 0 },
    randSigma := f64 0.00000000000000008449279779330043, randTau := f64 0.000000000570793820594853, linEvalSigma := f64 0.000000000000000012106655611491527, linEvalTau := f64 0.008864348118988643 }

/-- `ParamsBFVKeySwitchLogN11`. xtfhe/bfv_params_list.go:8-11. -/
def paramsBFVKeySwitchLogN11 : GadgetLit 64 :=
  { base := 1 <<< 9, level := 4 }

/-- The published literals of type `ParamsLit` for words of 32 bits. -/
def allParamsLit32 : List (ParamsLit 32) :=
  [paramsBinary, paramsBinaryCompact, paramsBinaryOriginal]

/-- The published literals of type `ParamsLit` for words of 64 bits. -/
def allParamsLit64 : List (ParamsLit 64) :=
  [paramsUint2, paramsUint3, paramsUint4, paramsUint5, paramsUint6, paramsUint7, paramsUint8]

/-- The published literals of type `MKParamsLit` for words of 64 bits. -/
def allMKParamsLit64 : List (MKParamsLit 64) :=
  [paramsBinaryParty2, paramsBinaryParty4, paramsBinaryParty8, paramsBinaryParty16, paramsBinaryParty32]

/-- The published literals of type `ManyLUTLit` for words of 32 bits. -/
def allManyLUTLit32 : List (ManyLUTLit 32) :=
  [paramsBinaryLUT2, paramsBinaryCompactLUT2]

/-- The published literals of type `ManyLUTLit` for words of 64 bits. -/
def allManyLUTLit64 : List (ManyLUTLit 64) :=
  [paramsUint2LUT4, paramsUint3LUT2]

/-- The published literals of type `CircuitBootstrapLit` for words of 64 bits. -/
def allCircuitBootstrapLit64 : List (CircuitBootstrapLit 64) :=
  [paramsCircuitBootstrapMedium, paramsCircuitBootstrapLarge]

/-- The published literals of type `FHEWLit` for words of 64 bits. -/
def allFHEWLit64 : List (FHEWLit 64) :=
  [paramsFHEWBinary]

/-- The published literals of type `SanitizationLit` for words of 64 bits. -/
def allSanitizationLit64 : List (SanitizationLit 64) :=
  [paramsSanitizeBinary]

/-- The published literals of type `GadgetLit` for words of 64 bits. -/
def allGadgetLit64 : List (GadgetLit 64) :=
  [paramsBFVKeySwitchLogN11]

/-- The base parameters of all published literals for words of 32 bits. -/
def base32 : List (ParamsLit 32) := [paramsBinary,
  paramsBinaryCompact,
  paramsBinaryOriginal,
  paramsBinaryLUT2.baseParams,
  paramsBinaryCompactLUT2.baseParams]

/-- The base parameters of all published literals for words of 64 bits. -/
def base64 : List (ParamsLit 64) := [paramsUint2,
  paramsUint3,
  paramsUint4,
  paramsUint5,
  paramsUint6,
  paramsUint7,
  paramsUint8,
  paramsBinaryParty2.subParams,
  paramsBinaryParty4.subParams,
  paramsBinaryParty8.subParams,
  paramsBinaryParty16.subParams,
  paramsBinaryParty32.subParams,
  paramsUint2LUT4.baseParams,
  paramsUint3LUT2.baseParams,
  paramsCircuitBootstrapMedium.manyLUTParams.baseParams,
  paramsCircuitBootstrapLarge.manyLUTParams.baseParams,
  paramsFHEWBinary.baseParams,
  paramsSanitizeBinary.baseParams]

end Published
end Tfhe
