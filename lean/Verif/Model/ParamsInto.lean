import Verif.Model.Marshal

/-!
# Model of `ReadFrom` of parameters as a method that writes to its receiver

`Model/Marshal` gives the object that is read; here is the receiver after the call, also when the call returns an error.
A panic is reported with the receiver as a caller that recovers finds it.
-/
namespace Tfhe.Ser

variable {w : ℕ}

/-- The result without the object. -/
def Rd.drop {α : Type} : Rd α → Rd Unit
  | .ok n _ rest => .ok n () rest
  | .err n => .err n
  | .panic => .panic

/-- `Parameters.ReadFrom`: all fields are read into local variables, and `*p` is assigned once, after the last read.
tfhe/params.go:821-912. -/
def paramsReadInto (impl : BitVec w) (p : Params w) (s : Bytes) : Params w × Rd Unit :=
  match paramsReadFrom impl s with
  | .ok n q rest => (q, .ok n () rest)
  | .err n => (p, .err n)
  | .panic => (p, .panic)

/-- What `mktfhe.Parameters.ReadFrom` does after it has read the sub-parameters `sub`.  mktfhe/params.go:358-385. -/
def mkParamsReadRest (impl : BitVec w) (sub : Params w) : Reader (MKParams w) :=
  readU64.bind fun partyCount => gadgetReadFrom.bind fun acc => gadgetReadFrom.bind fun relin =>
    .lift (MKParamsLit.compile impl
      { subParams := sub.literal, partyCount := partyCount, accumulatorParams := acc.literal
        relinKeyParams := relin.literal })

/-- `mktfhe.Parameters.ReadFrom`: the sub-parameters are read into `p.subParams` itself, and the other fields into local variables;
`*p` is assigned after the last read.  mktfhe/params.go:348-386. -/
def mkParamsReadInto (impl : BitVec w) (p : MKParams w) (s : Bytes) : MKParams w × Rd Unit :=
  match paramsReadInto impl p.subParams s with
  | (sub, .ok n () rest) =>
    match mkParamsReadRest impl sub rest with
    | .ok m q rest' => (q, .ok (n + m) () rest')
    | .err m => ({ p with subParams := sub }, .err (n + m))
    | .panic => ({ p with subParams := sub }, .panic)
  | (sub, .err n) => ({ p with subParams := sub }, .err n)
  | (sub, .panic) => ({ p with subParams := sub }, .panic)

/-- `UnmarshalBinary` of multi-key parameters; `true` is a returned error, `none` a panic.  mktfhe/params.go:396-400. -/
def mkParamsUnmarshalInto (impl : BitVec w) (p : MKParams w) (data : Bytes) : MKParams w × Option Bool :=
  match mkParamsReadInto impl p data with
  | (p, .ok _ _ _) => (p, some false)
  | (p, .err _) => (p, some true)
  | (p, .panic) => (p, none)

end Tfhe.Ser
