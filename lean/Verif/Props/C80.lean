import Verif.Model.ParamsInto
import Verif.Props.C25

/-!
# C80: a failed read of parameters leaves the receiver usable
-/
namespace Tfhe.Ser

variable {w : ℕ}

/-- Parameters that `Compile` returned; all functions of the library assume it. -/
def SKCompiled (impl : BitVec w) (p : Params w) : Prop := ∃ lit, ParamsLit.compile impl lit = some p

/-- The same for multi-key parameters. -/
def MkCompiled (impl : BitVec w) (p : MKParams w) : Prop := ∃ lit, MKParamsLit.compile impl lit = some p

/-- **C80 (single key).**  `Parameters.ReadFrom` stores what was read if it returns no error, and otherwise leaves the receiver as
it was; the count, the error and the rest of the stream are those of `Model/Marshal`. -/
theorem C80_single (impl : BitVec w) (p : Params w) (s : Bytes) :
    (paramsReadInto impl p s).2 = (paramsReadFrom impl s).drop ∧
      (∀ n q rest, paramsReadFrom impl s = .ok n q rest → (paramsReadInto impl p s).1 = q) ∧
      ((∀ n rest, (paramsReadInto impl p s).2 ≠ .ok n () rest) → (paramsReadInto impl p s).1 = p) := by
  unfold paramsReadInto
  cases h : paramsReadFrom impl s with
  | ok n q rest => exact ⟨rfl, fun _ _ _ e => (Rd.ok.inj e).2.1, fun e => (e n rest rfl).elim⟩
  | err n => exact ⟨rfl, fun _ _ _ e => by simp at e, fun _ => rfl⟩
  | panic => exact ⟨rfl, fun _ _ _ e => by simp at e, fun _ => rfl⟩

theorem mkParamsReadFrom_split (impl : BitVec w) (s : Bytes) :
    mkParamsReadFrom impl s = ((paramsReadFrom impl).bind (mkParamsReadRest impl)) s := rfl

theorem readLift_ok {α : Type} {o : Option α} {s rest : Bytes} {n : ℕ} {a : α} (h : Reader.lift o s = .ok n a rest) : o = some a := by
  cases o with
  | none => simp [Reader.lift] at h
  | some b => simp only [Reader.lift, Rd.ok.injEq] at h; rw [h.2.1]

theorem readBind_ok {α β : Type} {r : Reader α} {f : α → Reader β} {s rest : Bytes} {n : ℕ} {b : β}
    (h : r.bind f s = .ok n b rest) : ∃ a m s' , f a s' = .ok m b rest := by
  unfold Reader.bind at h
  split at h
  · rename_i a rest' h1
    split at h
    · rename_i m b' rest'' h2
      simp only [Rd.ok.injEq] at h
      obtain ⟨-, rfl, rfl⟩ := h
      exact ⟨a, m, _, h2⟩
    · simp at h
    · simp at h
  · simp at h
  · simp at h

/-- What `Parameters.ReadFrom` returns has been compiled. -/
theorem paramsReadFrom_compiled {impl : BitVec w} {s rest : Bytes} {n : ℕ} {q : Params w}
    (h : paramsReadFrom impl s = .ok n q rest) : SKCompiled impl q := by
  unfold paramsReadFrom at h
  iterate 12 obtain ⟨_, _, _, h⟩ := readBind_ok h
  exact ⟨_, readLift_ok h⟩

/-- What `mktfhe.Parameters.ReadFrom` returns has been compiled. -/
theorem mkParamsReadFrom_compiled {impl : BitVec w} {s rest : Bytes} {n : ℕ} {q : MKParams w}
    (h : mkParamsReadFrom impl s = .ok n q rest) : MkCompiled impl q := by
  unfold mkParamsReadFrom at h
  iterate 4 obtain ⟨_, _, _, h⟩ := readBind_ok h
  exact ⟨_, readLift_ok h⟩

/-- **C80 (several keys), what holds.**  `mktfhe.Parameters.ReadFrom` returns the count, the error and the rest of the stream of
`Model/Marshal`.  With no error the receiver is the object that was read.  With an error, or a panic, the number of parties and the
two gadgets of the receiver are as before, and so is everything if the sub-parameters could not be read; otherwise its
sub-parameters are those of the stream.

Missing: that the receiver is unchanged, which is false, `C80_false`. -/
theorem C80_several_partial (impl : BitVec w) (p : MKParams w) (s : Bytes) :
    (mkParamsReadInto impl p s).2 = (mkParamsReadFrom impl s).drop ∧
      (∀ n q rest, mkParamsReadFrom impl s = .ok n q rest → (mkParamsReadInto impl p s).1 = q ∧ MkCompiled impl q) ∧
      ((∀ n rest, (mkParamsReadInto impl p s).2 ≠ .ok n () rest) →
        (mkParamsReadInto impl p s).1.partyCount = p.partyCount ∧
        (mkParamsReadInto impl p s).1.accumulatorParams = p.accumulatorParams ∧
        (mkParamsReadInto impl p s).1.relinKeyParams = p.relinKeyParams ∧
        ((∀ n q rest, paramsReadFrom impl s ≠ .ok n q rest) → (mkParamsReadInto impl p s).1 = p) ∧
        ∀ n q rest, paramsReadFrom impl s = .ok n q rest → (mkParamsReadInto impl p s).1.subParams = q ∧ SKCompiled impl q) := by
  rw [mkParamsReadFrom_split]
  have hc : ∀ n q rest, (paramsReadFrom impl).bind (mkParamsReadRest impl) s = .ok n q rest → MkCompiled impl q :=
    fun n q rest h => mkParamsReadFrom_compiled (mkParamsReadFrom_split impl s ▸ h)
  have hs : ∀ n q rest, paramsReadFrom impl s = .ok n q rest → SKCompiled impl q := fun n q rest h => paramsReadFrom_compiled h
  revert hc hs
  unfold mkParamsReadInto paramsReadInto Reader.bind
  cases h : paramsReadFrom impl s with
  | err n => intro hc hs; simp [Rd.drop]
  | panic => intro hc hs; simp [Rd.drop]
  | ok n sub rest =>
    dsimp only
    cases h2 : mkParamsReadRest impl sub rest with
    | ok m q rest' =>
      intro hc hs
      refine ⟨rfl, fun n' q' r' e => ?_, fun e => (e _ _ rfl).elim⟩
      have := hc _ _ _ e
      simp only [Rd.ok.injEq] at e
      exact ⟨e.2.1, this⟩
    | err m =>
      intro hc hs
      refine ⟨rfl, by simp, fun _ => ⟨rfl, rfl, rfl, fun e => (e _ _ _ rfl).elim, fun n' q r e => ⟨?_, hs _ _ _ e⟩⟩⟩
      exact (Rd.ok.inj e).2.1
    | panic =>
      intro hc hs
      refine ⟨rfl, by simp, fun _ => ⟨rfl, rfl, rfl, fun e => (e _ _ _ rfl).elim, fun n' q r e => ⟨?_, hs _ _ _ e⟩⟩⟩
      exact (Rd.ok.inj e).2.1

/-- Multi-key parameters always have GLWE rank 1. -/
theorem mkCompiled_rank {impl : BitVec w} {p : MKParams w} (h : MkCompiled impl p) : p.subParams.glweRank = 1 := by
  obtain ⟨lit, h⟩ := h
  unfold MKParamsLit.compile at h
  obtain ⟨sub, -, h⟩ := Option.bind_eq_some_iff.1 h
  split at h
  · simp at h
  · split at h
    · simp at h
    · rename_i h1
      split at h
      · simp at h
      · obtain ⟨a, -, h⟩ := Option.bind_eq_some_iff.1 h
        obtain ⟨b, -, h⟩ := Option.bind_eq_some_iff.1 h
        rw [← Option.some.inj h]
        exact not_not.1 h1

/-- The bytes of single-key parameters with GLWE rank 3. -/
def exSingleBytes : Bytes := (((exLit.compile 0).bind paramsWriteTo).map Wr.bytes).getD []

/-- **C80 is false for multi-key parameters.**  `UnmarshalBinary` of valid multi-key parameters for three parties is given the bytes
of single-key parameters of GLWE rank 3.  It returns an error, and the receiver is changed: it is no longer a value that `Compile`
can return, for its GLWE rank is 3. -/
theorem C80_false : ∃ p : MKParams 32, MkCompiled 0 p ∧ (mkParamsUnmarshalInto 0 p exSingleBytes).2 = some true ∧
    (mkParamsUnmarshalInto 0 p exSingleBytes).1 ≠ p ∧ (mkParamsUnmarshalInto 0 p exSingleBytes).1.partyCount = 3 ∧
    (mkParamsUnmarshalInto 0 p exSingleBytes).1.subParams.glweRank = 3 ∧
    ¬ MkCompiled 0 (mkParamsUnmarshalInto 0 p exSingleBytes).1 := by
  obtain ⟨p, hp⟩ := Option.isSome_iff_exists.1 (show (exMKLit.compile 0).isSome = true by decide +kernel)
  have h : ((exMKLit.compile 0).map fun p => ((mkParamsUnmarshalInto 0 p exSingleBytes).2,
      (mkParamsUnmarshalInto 0 p exSingleBytes).1.partyCount,
      (mkParamsUnmarshalInto 0 p exSingleBytes).1.subParams.glweRank)) = some (some true, 3, 3) := by decide +kernel
  rw [hp] at h
  simp only [Option.map_some, Option.some.injEq, Prod.mk.injEq] at h
  obtain ⟨h1, h2, h3⟩ := h
  have hn : ¬ MkCompiled 0 (mkParamsUnmarshalInto 0 p exSingleBytes).1 := fun e => by
    rw [mkCompiled_rank e] at h3
    exact absurd h3 (by decide)
  exact ⟨p, ⟨_, hp⟩, h1, fun e => hn (e.symm ▸ ⟨_, hp⟩), h2, h3, hn⟩

/-- A stream that ends within the sub-parameters leaves the receiver as it was. -/
example (p : MKParams 32) : mkParamsUnmarshalInto 0 p (exSingleBytes.take 96) = (p, some true) := by
  have h : paramsReadFrom (0 : BitVec 32) (exSingleBytes.take 96) = .err 96 := by decide +kernel
  unfold mkParamsUnmarshalInto mkParamsReadInto paramsReadInto
  rw [h]

/-- The bytes of multi-key parameters are stored, whatever the receiver was. -/
example : ∃ p q : MKParams 32, exMKLit.compile 0 = some q ∧ p ≠ q ∧ (mkParamsUnmarshalInto 0 p
    (((mkParamsWriteTo q).map Wr.bytes).getD [])) = (q, some false) := by
  obtain ⟨q, hq⟩ := Option.isSome_iff_exists.1 (show (exMKLit.compile 0).isSome = true by decide +kernel)
  have h : ((exMKLit.compile 0).map fun q => decide (mkParamsUnmarshalInto 0 { q with partyCount := 7 }
      (((mkParamsWriteTo q).map Wr.bytes).getD []) = (q, some false) ∧ q.partyCount = 3)) = some true := by decide +kernel
  rw [hq] at h
  simp only [Option.map_some, Option.some.injEq, decide_eq_true_eq] at h
  refine ⟨{ q with partyCount := 7 }, q, hq, fun e => ?_, h.1⟩
  have := congrArg MKParams.partyCount e
  rw [h.2] at this
  exact absurd (show (7 : BitVec 64) = 3 from this) (by decide)

end Tfhe.Ser
