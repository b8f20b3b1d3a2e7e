import Verif.Lemma.Codec

/-!
# C25: parameters serialize and reload unchanged

For all parameters that `Compile` returned.  `impl` stands for the result of the
implementation-defined conversion in `Compile`, as in C23; it is the same at both ends.
-/
namespace Tfhe.Ser

variable {w mem : ℕ}

theorem C25_gadgetParameters (hw : w ≤ 64) {lit : GadgetLit w} {g : GadgetParams w}
    (h : lit.compile = some g) :
    RoundTrips (gadgetWriteTo g) (some 16) gadgetReadFrom g :=
  (codec_gadget (mem := g.level) hw ⟨⟨lit, h⟩, le_refl _⟩).roundTrips

theorem C25_parameters (hw : w ≤ 64) {impl : BitVec w} {lit : ParamsLit w} {p : Params w}
    (h : lit.compile impl = some p) :
    RoundTrips (paramsWriteTo p) (some 97) (paramsReadFrom impl) p :=
  (codec_params hw h).roundTrips

theorem C25_mkParameters (hw : w ≤ 64) {impl : BitVec w} {lit : MKParamsLit w} {p : MKParams w}
    (h : lit.compile impl = some p) :
    RoundTrips (mkParamsWriteTo p) (some 137) (mkParamsReadFrom impl) p :=
  (codec_mkParams hw h).roundTrips

example : ∃ g, (⟨0x200, 3⟩ : GadgetLit 32).compile = some g :=
  Option.isSome_iff_exists.1 (by decide +kernel)

example : ∃ p, exLit.compile 0 = some p ∧
    RoundTrips (paramsWriteTo p) (some 97) (paramsReadFrom 0) p := by
  obtain ⟨p, hp⟩ := Option.isSome_iff_exists.1 (show (exLit.compile 0).isSome = true by decide +kernel)
  exact ⟨p, hp, C25_parameters (by norm_num) hp⟩

/-- Three parties. -/
def exMKLit : MKParamsLit 32 :=
  { subParams := { exLit with glweRank := 1, polyRank := 1024 }, partyCount := 3
    accumulatorParams := ⟨0x40, 3⟩, relinKeyParams := ⟨0x40, 3⟩ }

example : ∃ p, exMKLit.compile 0 = some p ∧
    RoundTrips (mkParamsWriteTo p) (some 137) (mkParamsReadFrom 0) p := by
  obtain ⟨p, hp⟩ :=
    Option.isSome_iff_exists.1 (show (exMKLit.compile 0).isSome = true by decide +kernel)
  exact ⟨p, hp, C25_mkParameters (by norm_num) hp⟩

end Tfhe.Ser
