import Verif.Model.Params

/-!
# Model of the functions that change one field of a parameter literal, and of the accessors of gadgets

`tfhe/params.go` and `mktfhe/params.go`.  A method with a value receiver works on a copy, so it is a function from the literal to
the new literal, and the receiver stays what it was.
-/
namespace Tfhe

namespace GadgetLit
variable {w : ℕ} (p : GadgetLit w)
/-- `WithBase`.  tfhe/params.go:28-31. -/
def withBase (v : BitVec w) : GadgetLit w := { p with base := v }
/-- `WithLevel`.  tfhe/params.go:34-37. -/
def withLevel (v : BitVec 64) : GadgetLit w := { p with level := v }
end GadgetLit

namespace ParamsLit
variable {w : ℕ} (p : ParamsLit w)
/-- `WithLWEDimension`.  tfhe/params.go:303-306. -/
def withLWEDimension (v : BitVec 64) : ParamsLit w := { p with lweDimension := v }
/-- `WithGLWERank`.  tfhe/params.go:309-312. -/
def withGLWERank (v : BitVec 64) : ParamsLit w := { p with glweRank := v }
/-- `WithPolyRank`.  tfhe/params.go:315-318. -/
def withPolyRank (v : BitVec 64) : ParamsLit w := { p with polyRank := v }
/-- `WithLUTSize`.  tfhe/params.go:321-324. -/
def withLUTSize (v : BitVec 64) : ParamsLit w := { p with lutSize := v }
/-- `WithLWEStdDev`.  tfhe/params.go:327-330. -/
def withLWEStdDev (v : BitVec 64) : ParamsLit w := { p with lweStdDev := v }
/-- `WithGLWEStdDev`.  tfhe/params.go:333-336. -/
def withGLWEStdDev (v : BitVec 64) : ParamsLit w := { p with glweStdDev := v }
/-- `WithBlockSize`.  tfhe/params.go:339-342. -/
def withBlockSize (v : BitVec 64) : ParamsLit w := { p with blockSize := v }
/-- `WithMessageModulus`.  tfhe/params.go:345-348. -/
def withMessageModulus (v : BitVec w) : ParamsLit w := { p with messageModulus := v }
/-- `WithBlindRotateParams`.  tfhe/params.go:351-354. -/
def withBlindRotateParams (v : GadgetLit w) : ParamsLit w := { p with blindRotateParams := v }
/-- `WithKeySwitchParams`.  tfhe/params.go:357-360. -/
def withKeySwitchParams (v : GadgetLit w) : ParamsLit w := { p with keySwitchParams := v }
/-- `WithBootstrapOrder`.  tfhe/params.go:363-366. -/
def withBootstrapOrder (v : BitVec 64) : ParamsLit w := { p with bootstrapOrder := v }
end ParamsLit

/-- A call of one of these functions on a single-key literal. -/
inductive Change (w : ℕ) where
  | lweDimension (v : BitVec 64)
  | glweRank (v : BitVec 64)
  | polyRank (v : BitVec 64)
  | lutSize (v : BitVec 64)
  | lweStdDev (v : BitVec 64)
  | glweStdDev (v : BitVec 64)
  | blockSize (v : BitVec 64)
  | messageModulus (v : BitVec w)
  | blindRotateParams (v : GadgetLit w)
  | keySwitchParams (v : GadgetLit w)
  | bootstrapOrder (v : BitVec 64)

/-- The call.  tfhe/params.go:303-366. -/
def ParamsLit.change {w : ℕ} (p : ParamsLit w) : Change w → ParamsLit w
  | .lweDimension v => p.withLWEDimension v
  | .glweRank v => p.withGLWERank v
  | .polyRank v => p.withPolyRank v
  | .lutSize v => p.withLUTSize v
  | .lweStdDev v => p.withLWEStdDev v
  | .glweStdDev v => p.withGLWEStdDev v
  | .blockSize v => p.withBlockSize v
  | .messageModulus v => p.withMessageModulus v
  | .blindRotateParams v => p.withBlindRotateParams v
  | .keySwitchParams v => p.withKeySwitchParams v
  | .bootstrapOrder v => p.withBootstrapOrder v

namespace MKParamsLit
variable {w : ℕ} (p : MKParamsLit w)
/-- `WithPartyCount`.  mktfhe/params.go:36-39. -/
def withPartyCount (v : BitVec 64) : MKParamsLit w := { p with partyCount := v }
/-- `WithSingleKeyLWEDimension`.  mktfhe/params.go:42-45. -/
def withSingleKeyLWEDimension (v : BitVec 64) : MKParamsLit w := { p with subParams := { p.subParams with lweDimension := v } }
/-- `WithPolyRank`.  mktfhe/params.go:48-51. -/
def withPolyRank (v : BitVec 64) : MKParamsLit w := { p with subParams := { p.subParams with polyRank := v } }
/-- `WithLWEStdDev`.  mktfhe/params.go:54-57. -/
def withLWEStdDev (v : BitVec 64) : MKParamsLit w := { p with subParams := { p.subParams with lweStdDev := v } }
/-- `WithGLWEStdDev`.  mktfhe/params.go:60-63. -/
def withGLWEStdDev (v : BitVec 64) : MKParamsLit w := { p with subParams := { p.subParams with glweStdDev := v } }
/-- `WithBlockSize`.  mktfhe/params.go:66-69. -/
def withBlockSize (v : BitVec 64) : MKParamsLit w := { p with subParams := { p.subParams with blockSize := v } }
/-- `WithMessageModulus`.  mktfhe/params.go:72-75. -/
def withMessageModulus (v : BitVec w) : MKParamsLit w := { p with subParams := { p.subParams with messageModulus := v } }
/-- `WithBlindRotateParams`.  mktfhe/params.go:78-81. -/
def withBlindRotateParams (v : GadgetLit w) : MKParamsLit w :=
  { p with subParams := { p.subParams with blindRotateParams := v } }
/-- `WithKeySwitchParams`.  mktfhe/params.go:84-87. -/
def withKeySwitchParams (v : GadgetLit w) : MKParamsLit w :=
  { p with subParams := { p.subParams with keySwitchParams := v } }
/-- `WithAccumulatorParams`.  mktfhe/params.go:90-93. -/
def withAccumulatorParams (v : GadgetLit w) : MKParamsLit w := { p with accumulatorParams := v }
/-- `WithRelinKeyParams`.  mktfhe/params.go:96-99. -/
def withRelinKeyParams (v : GadgetLit w) : MKParamsLit w := { p with relinKeyParams := v }
/-- `WithBootstrapOrder`.  mktfhe/params.go:102-105. -/
def withBootstrapOrder (v : BitVec 64) : MKParamsLit w := { p with subParams := { p.subParams with bootstrapOrder := v } }
end MKParamsLit

/-- A call of one of these functions on a multi-key literal; there is none for the rank and the table size, since the multi-key
package fixes both. -/
inductive MKChange (w : ℕ) where
  | partyCount (v : BitVec 64)
  | lweDimension (v : BitVec 64)
  | polyRank (v : BitVec 64)
  | lweStdDev (v : BitVec 64)
  | glweStdDev (v : BitVec 64)
  | blockSize (v : BitVec 64)
  | messageModulus (v : BitVec w)
  | blindRotateParams (v : GadgetLit w)
  | keySwitchParams (v : GadgetLit w)
  | accumulatorParams (v : GadgetLit w)
  | relinKeyParams (v : GadgetLit w)
  | bootstrapOrder (v : BitVec 64)

/-- The call.  mktfhe/params.go:36-105. -/
def MKParamsLit.change {w : ℕ} (p : MKParamsLit w) : MKChange w → MKParamsLit w
  | .partyCount v => p.withPartyCount v
  | .lweDimension v => p.withSingleKeyLWEDimension v
  | .polyRank v => p.withPolyRank v
  | .lweStdDev v => p.withLWEStdDev v
  | .glweStdDev v => p.withGLWEStdDev v
  | .blockSize v => p.withBlockSize v
  | .messageModulus v => p.withMessageModulus v
  | .blindRotateParams v => p.withBlindRotateParams v
  | .keySwitchParams v => p.withKeySwitchParams v
  | .accumulatorParams v => p.withAccumulatorParams v
  | .relinKeyParams v => p.withRelinKeyParams v
  | .bootstrapOrder v => p.withBootstrapOrder v

/-- `T(1 << s)`: the constant has the type `T`, and a negative count is a run-time panic. -/
def goOneShl (w : ℕ) (s : BitVec 64) : Option (BitVec w) := if s.toInt < 0 then none else some (1#w <<< s.toNat)

namespace GadgetParams
variable {w : ℕ} (g : GadgetParams w)
/-- `LogBaseQ(i)` in Go's `int`.  tfhe/params.go:106-108. -/
def logBaseQInt (i : BitVec 64) : BitVec 64 := BitVec.ofNat 64 w - (i + 1) * BitVec.ofNat 64 g.logBase
/-- `BaseQ(i)`.  tfhe/params.go:90-92. -/
def baseQInt (i : BitVec 64) : Option (BitVec w) := goOneShl w (BitVec.ofNat 64 w - (i + 1) * BitVec.ofNat 64 g.logBase)
/-- `FirstBaseQ`.  tfhe/params.go:95-97. -/
def firstBaseQInt : Option (BitVec w) := goOneShl w (BitVec.ofNat 64 w - BitVec.ofNat 64 g.logBase)
/-- `LastBaseQ`.  tfhe/params.go:100-102. -/
def lastBaseQInt : Option (BitVec w) := goOneShl w (BitVec.ofNat 64 w - BitVec.ofNat 64 g.level * BitVec.ofNat 64 g.logBase)
end GadgetParams
end Tfhe
