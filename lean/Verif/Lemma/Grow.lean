import Verif.Lemma.Run

/-!
# The buffers of the decomposer never shrink
-/
namespace Tfhe.Scratch

variable {w : ℕ} {F : Type}

/-- Whatever the program does, the buffers of the decomposer do not get shorter. -/
def Grow {A : Type} (p : M w F A) : Prop := ∀ m a m1, p m = some (a, m1) → m.cLen ≤ m1.cLen ∧ m.pLen ≤ m1.pLen

theorem Grow.pure {A : Type} (a : A) : Grow (pure a : M w F A) := by
  intro m b m1 h
  cases h; exact ⟨le_rfl, le_rfl⟩

theorem Grow.panic {A : Type} : Grow (panic : M w F A) := by
  intro m b m1 h
  cases h

theorem Grow.bind {A B : Type} {p : M w F A} {f : A → M w F B} (hp : Grow p) (hf : ∀ a, Grow (f a)) : Grow (p >>= f) := by
  intro m b m2 h
  rw [run_bind, Option.bind_eq_some_iff] at h
  obtain ⟨⟨a, m1⟩, h1, h2⟩ := h
  have a1 := hp m a m1 h1
  have a2 := hf a m1 b m2 h2
  exact ⟨a1.1.trans a2.1, a1.2.trans a2.2⟩

theorem Grow.loopN {body : ℕ → M w F Unit} (h : ∀ i, Grow (body i)) : ∀ n a, Grow (loopN body n a)
  | 0, _ => Grow.pure _
  | n + 1, a => (h a).bind fun _ => Grow.loopN h n (a + 1)

theorem Grow.forUp {a b : ℕ} {body : ℕ → M w F Unit} (h : ∀ i, Grow (body i)) : Grow (Scratch.forUp a b body) :=
  Grow.loopN h _ _

theorem grow_rd {v : Vec} {i : ℕ} : Grow (rd v i : M w F (BitVec w)) := by
  intro m a m1 h
  rw [run_rd] at h; split at h <;> cases h; exact ⟨le_rfl, le_rfl⟩

theorem grow_wr {v : Vec} {i : ℕ} {x : BitVec w} : Grow (wr v i x : M w F Unit) := by
  intro m a m1 h
  rw [run_wr] at h; split at h <;> cases h; exact ⟨le_rfl, le_rfl⟩

theorem grow_rdAll {v : Vec} : Grow (rdAll v : M w F (List (BitVec w))) := by
  intro m a m1 h; rw [run_rdAll] at h; cases h; exact ⟨le_rfl, le_rfl⟩

theorem grow_rdF {l : FLoc} : Grow (rdF l : M w F F) := by
  intro m a m1 h; cases h; exact ⟨le_rfl, le_rfl⟩

theorem grow_wrF {l : FLoc} {x : F} : Grow (wrF l x : M w F Unit) := by
  intro m a m1 h; cases h; exact ⟨le_rfl, le_rfl⟩

theorem grow_check {b : Bool} : Grow (check b : M w F Unit) := by
  cases b
  · exact Grow.panic
  · exact Grow.pure _

theorem grow_need {A : Type} {x : Option A} : Grow (need x : M w F A) := by
  cases x
  · exact Grow.panic
  · exact Grow.pure _

theorem grow_elem {A : Type} {xs : List A} {i : ℕ} : Grow (elem xs i : M w F A) := grow_need

theorem grow_scalarBuffer {g : GadgetParams w} : Grow (scalarBuffer g : M w F Vec) := by
  intro m a m1 h
  rw [run_scalarBuffer] at h
  split at h <;> cases h
  · exact ⟨le_rfl, le_rfl⟩
  · exact ⟨by show m.cLen ≤ g.level; omega, le_rfl⟩

theorem grow_polyBuffer {N : ℕ} {g : GadgetParams w} : Grow (polyBuffer N g : M w F (List Vec)) := by
  intro m a m1 h
  rw [run_polyBuffer] at h
  split at h <;> cases h
  · exact ⟨le_rfl, le_rfl⟩
  · exact ⟨le_rfl, by show m.pLen ≤ g.level; omega⟩

theorem grow_fftPolyBuffer {O : Ops w F} {g : GadgetParams w} : Grow (fftPolyBuffer O g : M w F (List FLoc)) := by
  intro m a m1 h
  rw [run_fftPolyBuffer] at h
  split at h <;> cases h <;> exact ⟨le_rfl, le_rfl⟩

theorem grow_sliceScalar {n : ℕ} : Grow (sliceScalar n : M w F Vec) := by
  intro m a m1 h
  rw [run_sliceScalar] at h; split at h <;> cases h; exact ⟨le_rfl, le_rfl⟩

theorem grow_slicePoly {N n : ℕ} : Grow (slicePoly N n : M w F (List Vec)) := by
  intro m a m1 h
  rw [run_slicePoly] at h; split at h <;> cases h; exact ⟨le_rfl, le_rfl⟩

theorem grow_dcmpDown {g : GadgetParams w} {out : ℕ → Option (Vec × ℕ)} : ∀ (n : ℕ) (u : BitVec w),
    Grow (dcmpDown g out n u : M w F (BitVec w))
  | 0, _ => Grow.pure _
  | n + 1, _ => grow_need.bind fun _ => grow_wr.bind fun _ => grow_rd.bind fun _ => grow_rd.bind fun _ =>
      grow_wr.bind fun _ => grow_dcmpDown n _

theorem grow_le {A : Type} {p : M w F A} (h : Grow p) {m m1 : Mem w F} {a : A} (e : p m = some (a, m1)) :
    m.cLen ≤ m1.cLen ∧ m.pLen ≤ m1.pLen := h m a m1 e

attribute [irreducible] Grow

/-- Goes through a program step by step. -/
macro "grow" : tactic => `(tactic| repeat' (with_reducible first
  | intro _
  | exact Grow.pure _ | exact Grow.panic | exact grow_rd | exact grow_wr | exact grow_rdAll | exact grow_rdF
  | exact grow_wrF | exact grow_check | exact grow_need | exact grow_elem | exact grow_scalarBuffer
  | exact grow_polyBuffer | exact grow_fftPolyBuffer | exact grow_sliceScalar | exact grow_slicePoly
  | exact grow_dcmpDown _ _
  | apply Grow.forUp | apply Grow.bind | split))

section
variable {O : Ops w F} {E : Ev w}

theorem grow_dcmp {g : GadgetParams w} {out : ℕ → Option (Vec × ℕ)} {x : BitVec w} : Grow (dcmp g out x : M w F Unit) := by
  unfold dcmp; grow

theorem grow_copyTo {a b : Vec} : Grow (copyTo a b : M w F Unit) := by unfold copyTo; grow
theorem grow_clear {a : Vec} : Grow (clear a : M w F Unit) := by unfold clear; grow
theorem grow_scalarMulTo {a b : Vec} {c : BitVec w} : Grow (scalarMulTo a b c : M w F Unit) := by unfold scalarMulTo; grow
theorem grow_scalarMulAddTo {a b : Vec} {c : BitVec w} : Grow (scalarMulAddTo a b c : M w F Unit) := by
  unfold scalarMulAddTo; grow
theorem grow_scalarMulSubTo {a b : Vec} {c : BitVec w} : Grow (scalarMulSubTo a b c : M w F Unit) := by
  unfold scalarMulSubTo; grow
theorem grow_addTo {a b c : Vec} : Grow (addTo a b c : M w F Unit) := by unfold addTo; grow
theorem grow_subTo {a b c : Vec} : Grow (subTo a b c : M w F Unit) := by unfold subTo; grow
theorem grow_decomposeScalarTo {g : GadgetParams w} {out : Vec} {x : BitVec w} :
    Grow (decomposeScalarTo g out x : M w F Unit) := grow_dcmp
theorem grow_decomposePolyTo {g : GadgetParams w} {out : List Vec} {p : Vec} :
    Grow (decomposePolyTo g out p : M w F Unit) := Grow.forUp fun _ => grow_rd.bind fun _ => grow_dcmp
theorem grow_fwdFFTTo {l : FLoc} {p : Vec} : Grow (fwdFFTTo O E l p) := by unfold fwdFFTTo; grow
theorem grow_invFFTToUnsafe {l : FLoc} {p : Vec} : Grow (invFFTToUnsafe O E p l) := by unfold invFFTToUnsafe; grow
theorem grow_invFFTAddToUnsafe {l : FLoc} {p : Vec} : Grow (invFFTAddToUnsafe O E p l) := by unfold invFFTAddToUnsafe; grow
theorem grow_invFFTSubToUnsafe {l : FLoc} {p : Vec} : Grow (invFFTSubToUnsafe O E p l) := by unfold invFFTSubToUnsafe; grow
theorem grow_invFFTMode {mode : Mode} {l : FLoc} {p : Vec} : Grow (invFFTMode O E mode p l) := by
  cases mode
  · exact grow_invFFTToUnsafe
  · exact grow_invFFTAddToUnsafe
  · exact grow_invFFTSubToUnsafe
theorem grow_mulPoly {a b : ℕ → FLoc} {c : FLoc} : Grow (fftPolyMulFFTGLWETo O E a b c) := by
  unfold fftPolyMulFFTGLWETo mulFFTPolyTo; grow
theorem grow_mulAddPoly {a b : ℕ → FLoc} {c : FLoc} : Grow (fftPolyMulAddFFTGLWETo O E a b c) := by
  unfold fftPolyMulAddFFTGLWETo mulAddFFTPolyTo; grow
theorem grow_polyMul {a b : ℕ → FLoc} {c : Vec} : Grow (polyMulFFTGLWETo O E a b c) :=
  grow_fwdFFTTo.bind fun _ => grow_mulPoly
theorem grow_polyMulAdd {a b : ℕ → FLoc} {c : Vec} : Grow (polyMulAddFFTGLWETo O E a b c) :=
  grow_fwdFFTTo.bind fun _ => grow_mulAddPoly
theorem grow_subFFT {a b c : ℕ → FLoc} : Grow (subFFTGLWETo O E a b c) := by unfold subFFTGLWETo subFFTPolyTo; grow
theorem grow_subGLWETo {a b c : List Vec} : Grow (subGLWETo E a b c : M w F Unit) := by
  unfold subGLWETo subTo; grow
theorem grow_monomialMulPolyTo {a b : Vec} {d : ℤ} : Grow (monomialMulPolyTo O E a b d) := by
  unfold monomialMulPolyTo; grow

/-- Goes through a program call by call. -/
macro "grow'" : tactic => `(tactic| repeat' (with_reducible first
  | intro _
  | exact Grow.pure _ | exact Grow.panic | exact grow_rd | exact grow_wr | exact grow_rdAll | exact grow_rdF
  | exact grow_wrF | exact grow_check | exact grow_need | exact grow_elem | exact grow_scalarBuffer
  | exact grow_polyBuffer | exact grow_fftPolyBuffer | exact grow_sliceScalar | exact grow_slicePoly
  | exact grow_copyTo | exact grow_clear | exact grow_scalarMulTo | exact grow_scalarMulAddTo
  | exact grow_scalarMulSubTo | exact grow_addTo | exact grow_subTo | exact grow_decomposeScalarTo
  | exact grow_decomposePolyTo | exact grow_fwdFFTTo | exact grow_invFFTToUnsafe | exact grow_invFFTAddToUnsafe
  | exact grow_invFFTMode | exact grow_mulPoly | exact grow_mulAddPoly | exact grow_polyMul | exact grow_polyMulAdd
  | exact grow_subFFT | exact grow_subGLWETo | exact grow_monomialMulPolyTo
  | apply Grow.forUp | apply Grow.bind | split))

theorem grow_fourierDecomposePolyTo {g : GadgetParams w} {out : List FLoc} {p : Vec} :
    Grow (fourierDecomposePolyTo O E g out p) := by unfold fourierDecomposePolyTo; grow'
theorem grow_keySwitchLWETo {out ct : Vec} {g : GadgetParams w} {n : ℕ} {k : ℕ → ℕ → UVec} :
    Grow (keySwitchLWETo E out ct g n k : M w F Unit) := by unfold keySwitchLWETo; grow'
theorem grow_keySwitchGLWETo {out ct : List Vec} {g : GadgetParams w} {n : ℕ} {k : ℕ → ℕ → ℕ → ℕ} :
    Grow (keySwitchGLWETo O E out ct g n k) := by
  unfold keySwitchGLWETo
  repeat' (with_reducible first
    | exact grow_fourierDecomposePolyTo | exact grow_fftPolyBuffer | exact grow_elem
    | exact grow_mulPoly | exact grow_mulAddPoly | exact grow_copyTo | exact grow_invFFTAddToUnsafe
    | exact grow_invFFTToUnsafe | intro _ | apply Grow.forUp | apply Grow.bind)
theorem grow_gadgetProdLWETo {mode : Mode} {out : Vec} {g : GadgetParams w} {k : ℕ → UVec} {x : BitVec w} :
    Grow (gadgetProdLWETo mode out g k x : M w F Unit) := by cases mode <;> (unfold gadgetProdLWETo; grow')
theorem grow_gadgetProdGLWETo {mode : Mode} {out : List Vec} {g : GadgetParams w} {k : ℕ → ℕ → ℕ} {x : Vec} :
    Grow (gadgetProdGLWETo O E mode out g k x) := by unfold gadgetProdGLWETo; grow'
theorem grow_externalProdLWETo {mode : Mode} {out ct : Vec} {g : GadgetParams w} {k : ℕ → ℕ → UVec} :
    Grow (externalProdLWETo E mode out g k ct : M w F Unit) := by cases mode <;> (unfold externalProdLWETo; grow')
theorem grow_externalProdGLWETo {mode : Mode} {out ct : List Vec} {g : GadgetParams w} {k : ℕ → ℕ → ℕ → ℕ} :
    Grow (externalProdGLWETo O E mode out g k ct) := by unfold externalProdGLWETo; grow'
theorem grow_cmuxTo {out ct0 ct1 : List Vec} {g : GadgetParams w} {k : ℕ → ℕ → ℕ → ℕ} :
    Grow (cmuxTo O E out g k ct0 ct1) := by
  unfold cmuxTo
  exact (Grow.forUp fun _ => grow_elem.bind fun _ => grow_elem.bind fun _ => grow_copyTo).bind fun _ =>
    grow_subGLWETo.bind fun _ => grow_externalProdGLWETo
theorem grow_gadgetProdFFT {out : ℕ → FLoc} {g : GadgetParams w} {k : ℕ → ℕ → ℕ} {d : ℕ → FLoc} :
    Grow (gadgetProdFFTGLWETo O E out g k d) := by unfold gadgetProdFFTGLWETo; grow'
theorem grow_externalProdFFT {out : ℕ → FLoc} {g : GadgetParams w} {k : ℕ → ℕ → ℕ → ℕ} {d : ℕ → ℕ → FLoc} :
    Grow (externalProdFFTGLWETo O E out g k d) := by unfold externalProdFFTGLWETo; grow'
theorem grow_dcmpAcc {d : List Vec} {q t : ℕ} {p : Vec} : Grow (dcmpAcc O E d q t p) := by unfold dcmpAcc; grow'
theorem grow_rotInit {out lut : List Vec} {ct : Vec} : Grow (rotInit O E out ct lut) := by unfold rotInit; grow'
theorem grow_dcmpOut {d out : List Vec} : Grow (dcmpOut O E d out) :=
  Grow.forUp fun _ => grow_elem.bind fun _ => grow_dcmpAcc
theorem grow_accOut {out : List Vec} : Grow (accOut O E out) := by unfold accOut; grow'
theorem grow_extRotSet {a : ℕ} : Grow (extRotSet O E a) := by unfold extRotSet; dsimp only; grow'
theorem grow_extRotAdd {a : ℕ} : Grow (extRotAdd O E a) := by unfold extRotAdd; dsimp only; grow'
theorem grow_extInv : Grow (extInv O E) := by unfold extInv; grow'
theorem grow_extDcmp {d : List Vec} : Grow (extDcmp O E d) := Grow.forUp fun _ => Grow.forUp fun _ => grow_dcmpAcc
theorem grow_extLast {b : Bool} {j a : ℕ} : Grow (extLast O E b j a) := by
  unfold extLast; dsimp only
  repeat' (with_reducible first
    | exact grow_externalProdFFT | exact grow_wrF | exact grow_mulPoly | exact grow_mulAddPoly
    | exact grow_subFFT
    | intro _ | apply Grow.bind | split)

/-- The same for bootstrapping. -/
macro "grow''" : tactic => `(tactic| repeat' (with_reducible first
  | intro _
  | exact grow_gadgetProdFFT | exact grow_externalProdFFT | exact grow_dcmpAcc | exact grow_rotInit | exact grow_dcmpOut
  | exact grow_accOut | exact grow_extRotSet | exact grow_extRotAdd | exact grow_extInv | exact grow_extDcmp
  | exact grow_extLast | exact grow_rd | exact grow_wrF | exact grow_elem | exact grow_slicePoly | exact grow_copyTo
  | exact grow_clear | exact grow_mulPoly | exact grow_mulAddPoly | exact grow_invFFTAddToUnsafe
  | exact grow_monomialMulPolyTo
  | apply Grow.forUp | apply Grow.bind | split))

theorem grow_blindRotateTo {out lut : List Vec} {ct : Vec} : Grow (blindRotateTo O E out ct lut) := by
  unfold blindRotateTo
  split
  · unfold blindRotateExtendedTo; grow''
  split
  · unfold blindRotateBlockTo; grow''
  · unfold blindRotateOriginalTo; grow''
theorem grow_defaultKeySwitchTo {out ct : Vec} : Grow (defaultKeySwitchTo E out ct : M w F Unit) := by
  unfold defaultKeySwitchTo; grow'
theorem grow_extractTo {ct : List Vec} {out : Vec} : Grow (extractTo ct out : M w F Unit) := by
  unfold extractTo; grow'
theorem grow_bootstrapLUTTo {out ct : Vec} {lut : List Vec} : Grow (bootstrapLUTTo O E out ct lut) := by
  unfold bootstrapLUTTo
  split
  · exact grow_defaultKeySwitchTo.bind fun _ => grow_blindRotateTo.bind fun _ => grow_extractTo
  · exact grow_blindRotateTo.bind fun _ => grow_extractTo.bind fun _ => grow_defaultKeySwitchTo
theorem grow_genLUTFullTo {out : List Vec} {p : ℕ} {fn : ℕ → BitVec w} : Grow (genLUTFullTo E out p fn : M w F Unit) := by
  unfold genLUTFullTo genLUTWrite; grow'

/-- No call makes the buffers shorter. -/
theorem grow_call (c : Call w) : Grow (c.run O E) := by
  cases c
  · exact grow_decomposeScalarTo
  · exact grow_decomposePolyTo
  · exact grow_keySwitchLWETo
  · exact grow_keySwitchGLWETo
  · exact grow_gadgetProdLWETo
  · exact grow_gadgetProdGLWETo
  · exact grow_externalProdLWETo
  · exact grow_externalProdGLWETo
  · exact grow_cmuxTo
  · exact grow_fourierDecomposePolyTo
  · exact grow_blindRotateTo
  · exact grow_defaultKeySwitchTo
  · exact grow_bootstrapLUTTo
  · exact grow_genLUTFullTo
  · exact grow_genLUTFullTo.bind fun _ => grow_bootstrapLUTTo

end

end Tfhe.Scratch
