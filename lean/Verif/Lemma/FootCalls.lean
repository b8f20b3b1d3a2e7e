import Verif.Lemma.Foot

/-!
# Which memory of the caller the calls touch
-/
namespace Tfhe.Scratch

variable {w : ℕ} {F : Type} {R W : Set UCell} {O : Ops w F} {E : Ev w}

attribute [local irreducible] Foot

theorem pv {S : Set UCell} {c : ℕ → WLoc} {n : ℕ} (h : ∀ i a, c i ≠ .user a) : VR S ⟨c, n⟩ := Priv.vr h

theorem pf {S : Set UCell} {l : FLoc} (h : ∀ a, l ≠ .user a) : inF S l := inF_priv h

theorem inF_user {S : Set UCell} {a : ℕ} (h : .f a ∈ S) : inF S (.user a) := by
  rintro _ ⟨⟩; exact h

theorem pvl {S : Set UCell} {n : ℕ} {c : ℕ → ℕ → WLoc} {N : ℕ} (h : ∀ t i a, c t i ≠ .user a) :
    ∀ v ∈ (List.range n).map fun t => (⟨c t, N⟩ : Vec), VR S v := by
  intro v hv
  obtain ⟨t, -, rfl⟩ := List.mem_map.mp hv
  exact pv (h t)

/-- The slices of words at the addresses of a key are in `R`. -/
def KeyW (R : Set UCell) (key : ℕ → ℕ → UVec) : Prop := ∀ i j, VR R (key i j).vec

/-- The transformed polynomials at the addresses of a key are in `R`. -/
def KeyF (R : Set UCell) (key : ℕ → ℕ → ℕ → ℕ) : Prop := ∀ i j t, .f (key i j t) ∈ R

theorem foot_keySwitchLWETo {out ct : Vec} {g : GadgetParams w} {nIn : ℕ} {ksk : ℕ → ℕ → UVec} (ho : VR W out)
    (hc : VR R ct) (hk : KeyW R ksk) : Foot R W (keySwitchLWETo E out ct g nIn ksk : M w F Unit) Tr := by
  have hp : ∀ S, VR S (prodLWE E) := fun S => pv fun _ _ => by nofun
  refine foot_scalarBuffer.bind fun c h => (foot_rd hc).bind fun _ _ => (foot_decomposeScalarTo h.vr h.vr).bind fun _ _ =>
    (foot_rd h.vr).bind fun _ _ => (foot_scalarMulTo (hp W) (hk _ _)).bind fun _ _ =>
    (foot_forUp fun j => (foot_rd h.vr).bind fun _ _ => foot_scalarMulAddTo (hp W) (hp R) (hk _ _)).bind fun _ _ =>
    (foot_forUp fun i => (foot_rd hc).bind fun _ _ => (foot_decomposeScalarTo h.vr h.vr).bind fun _ _ =>
      foot_forUp fun j => (foot_rd h.vr).bind fun _ _ => foot_scalarMulAddTo (hp W) (hp R) (hk _ _)).bind fun _ _ =>
    (foot_rd hc).bind fun _ _ => (foot_rd (hp R)).bind fun _ _ => (foot_wr ho).bind fun _ _ => foot_copyTo ?_ ?_
  · intro i hi
    exact ho _ (by show i + 1 < out.len; have : i < out.len - 1 := hi; omega)
  · exact pv fun _ _ => by nofun

theorem foot_fourierDecomposePolyTo {g : GadgetParams w} {out : List FLoc} {p : Vec} (ho : ∀ l ∈ out, inF W l)
    (hp : VR R p) : Foot R W (fourierDecomposePolyTo O E g out p) Tr :=
  foot_polyBuffer.bind fun _ h => (foot_decomposePolyTo hp (fun v hv => (h v hv).vr) fun v hv => (h v hv).vr).bind
    fun _ _ => foot_forUp fun _ => foot_elem.bind fun _ h1 => foot_elem.bind fun _ h2 =>
      foot_fwdFFTTo (ho _ h1) (h _ h2).vr

theorem foot_keySwitchGLWETo {out ct : List Vec} {g : GadgetParams w} {kIn : ℕ} {ksk : ℕ → ℕ → ℕ → ℕ}
    (ho : ∀ v ∈ out, VR W v) (ho' : ∀ v ∈ out, VR R v) (hc : ∀ v ∈ ct, VR R v) (hk : KeyF R ksk) :
    Foot R W (keySwitchGLWETo O E out ct g kIn ksk) Tr := by
  have hp : ∀ S t, inF S (.prod t) := fun S t => pf fun _ => by nofun
  exact foot_fftPolyBuffer.bind fun fd h => foot_elem.bind fun _ h1 =>
    (foot_fourierDecomposePolyTo (fun l hl => pf (h l hl)) (hc _ h1)).bind fun _ _ => foot_elem.bind fun _ h2 =>
    (foot_fftPolyMulFFTGLWETo (hp W) (fun _ => inF_user (hk _ _ _)) (pf (h _ h2))).bind fun _ _ =>
    (foot_forUp fun _ => foot_elem.bind fun _ h2 =>
      foot_fftPolyMulAddFFTGLWETo (hp W) (hp R) (fun _ => inF_user (hk _ _ _)) (pf (h _ h2))).bind fun _ _ =>
    (foot_forUp fun _ => foot_elem.bind fun _ h1 =>
      (foot_fourierDecomposePolyTo (fun l hl => pf (h l hl)) (hc _ h1)).bind fun _ _ =>
      foot_forUp fun _ => foot_elem.bind fun _ h2 =>
        foot_fftPolyMulAddFFTGLWETo (hp W) (hp R) (fun _ => inF_user (hk _ _ _)) (pf (h _ h2))).bind fun _ _ =>
    foot_elem.bind fun _ h1 => foot_elem.bind fun _ h2 => (foot_copyTo (ho _ h1) (hc _ h2)).bind fun _ _ =>
    foot_elem.bind fun _ h1 => (foot_invFFTAddToUnsafe (hp R _) (hp W _) (ho _ h1) (ho' _ h1)).bind fun _ _ =>
    foot_forUp fun _ => foot_elem.bind fun _ h1 => foot_invFFTToUnsafe (hp R _) (hp W _) (ho _ h1)

theorem foot_gadgetProdLWETo {mode : Mode} {out : Vec} {g : GadgetParams w} {lev : ℕ → UVec} {x : BitVec w}
    (ho : VR W out) (ho' : VR R out) (hk : ∀ i, VR R (lev i).vec) :
    Foot R W (gadgetProdLWETo mode out g lev x : M w F Unit) Tr := by
  refine foot_scalarBuffer.bind fun c h => (foot_decomposeScalarTo h.vr h.vr).bind fun _ _ => ?_
  cases mode
  · exact (foot_rd h.vr).bind fun _ _ => (foot_scalarMulTo ho (hk _)).bind fun _ _ =>
      foot_forUp fun _ => (foot_rd h.vr).bind fun _ _ => foot_scalarMulAddTo ho ho' (hk _)
  · exact foot_forUp fun _ => (foot_rd h.vr).bind fun _ _ => foot_scalarMulAddTo ho ho' (hk _)
  · exact foot_forUp fun _ => (foot_rd h.vr).bind fun _ _ => foot_scalarMulSubTo ho ho' (hk _)

theorem foot_invFFTMode {mode : Mode} {l : FLoc} {p : Vec} (hl : inF R l) (hl' : inF W l) (hp : VR W p) (hp' : VR R p) :
    Foot R W (invFFTMode O E mode p l) Tr := by
  cases mode
  · exact foot_invFFTToUnsafe hl hl' hp
  · exact foot_invFFTAddToUnsafe hl hl' hp hp'
  · exact foot_invFFTSubToUnsafe hl hl' hp hp'

theorem foot_gadgetProdGLWETo {mode : Mode} {out : List Vec} {g : GadgetParams w} {lev : ℕ → ℕ → ℕ} {p : Vec}
    (ho : ∀ v ∈ out, VR W v) (ho' : ∀ v ∈ out, VR R v) (hp : VR R p) (hk : ∀ i t, .f (lev i t) ∈ R) :
    Foot R W (gadgetProdGLWETo O E mode out g lev p) Tr := by
  have hP : ∀ S t, inF S (.prod t) := fun S t => pf fun _ => by nofun
  exact foot_polyBuffer.bind fun d h => foot_fftPolyBuffer.bind fun fd h' =>
    (foot_decomposePolyTo hp (fun v hv => (h v hv).vr) fun v hv => (h v hv).vr).bind fun _ _ =>
    (foot_forUp fun _ => foot_elem.bind fun _ h1 => foot_elem.bind fun _ h2 =>
      foot_fwdFFTTo (pf (h' _ h1)) (h _ h2).vr).bind fun _ _ => foot_elem.bind fun _ h2 =>
    (foot_fftPolyMulFFTGLWETo (hP W) (fun _ => inF_user (hk _ _)) (pf (h' _ h2))).bind fun _ _ =>
    (foot_forUp fun _ => foot_elem.bind fun _ h2 =>
      foot_fftPolyMulAddFFTGLWETo (hP W) (hP R) (fun _ => inF_user (hk _ _)) (pf (h' _ h2))).bind fun _ _ =>
    foot_forUp fun _ => foot_elem.bind fun _ h1 => foot_invFFTMode (hP R _) (hP W _) (ho _ h1) (ho' _ h1)

theorem foot_externalProdLWETo {mode : Mode} {out ct : Vec} {g : GadgetParams w} {gsw : ℕ → ℕ → UVec} (ho : VR W out)
    (ho' : VR R out) (hc : VR R ct) (hk : KeyW R gsw) :
    Foot R W (externalProdLWETo E mode out g gsw ct : M w F Unit) Tr := by
  have hp : ∀ S, VR S (prodLWE E) := fun S => pv fun _ _ => by nofun
  refine foot_scalarBuffer.bind fun c h => (foot_rd hc).bind fun _ _ => (foot_decomposeScalarTo h.vr h.vr).bind fun _ _ =>
    (foot_rd h.vr).bind fun _ _ => (foot_scalarMulTo (hp W) (hk _ _)).bind fun _ _ =>
    (foot_forUp fun j => (foot_rd h.vr).bind fun _ _ => foot_scalarMulAddTo (hp W) (hp R) (hk _ _)).bind fun _ _ =>
    (foot_forUp fun i => (foot_rd hc).bind fun _ _ => (foot_decomposeScalarTo h.vr h.vr).bind fun _ _ =>
      foot_forUp fun j => (foot_rd h.vr).bind fun _ _ => foot_scalarMulAddTo (hp W) (hp R) (hk _ _)).bind fun _ _ => ?_
  cases mode
  · exact foot_copyTo ho (hp R)
  · exact foot_addTo ho ho' (hp R)
  · exact foot_subTo ho ho' (hp R)

theorem foot_externalProdGLWETo {mode : Mode} {out ct : List Vec} {g : GadgetParams w} {gsw : ℕ → ℕ → ℕ → ℕ}
    (ho : ∀ v ∈ out, VR W v) (ho' : ∀ v ∈ out, VR R v) (hc : ∀ v ∈ ct, VR R v) (hk : KeyF R gsw) :
    Foot R W (externalProdGLWETo O E mode out g gsw ct) Tr := by
  have hP : ∀ S t, inF S (.prod t) := fun S t => pf fun _ => by nofun
  exact foot_polyBuffer.bind fun d h => foot_elem.bind fun _ h1 =>
    (foot_decomposePolyTo (hc _ h1) (fun v hv => (h v hv).vr) fun v hv => (h v hv).vr).bind fun _ _ =>
    foot_elem.bind fun _ h2 =>
    (foot_polyMulFFTGLWETo (hP W) (fun _ => inF_user (hk _ _ _)) (h _ h2).vr).bind fun _ _ =>
    (foot_forUp fun _ => foot_elem.bind fun _ h2 =>
      foot_polyMulAddFFTGLWETo (hP W) (hP R) (fun _ => inF_user (hk _ _ _)) (h _ h2).vr).bind fun _ _ =>
    (foot_forUp fun _ => foot_elem.bind fun _ h1 =>
      (foot_decomposePolyTo (hc _ h1) (fun v hv => (h v hv).vr) fun v hv => (h v hv).vr).bind fun _ _ =>
      foot_forUp fun _ => foot_elem.bind fun _ h2 =>
        foot_polyMulAddFFTGLWETo (hP W) (hP R) (fun _ => inF_user (hk _ _ _)) (h _ h2).vr).bind fun _ _ =>
    foot_forUp fun _ => foot_elem.bind fun _ h1 => foot_invFFTMode (hP R _) (hP W _) (ho _ h1) (ho' _ h1)

theorem foot_cmuxTo {out ct0 ct1 : List Vec} {g : GadgetParams w} {gsw : ℕ → ℕ → ℕ → ℕ}
    (ho : ∀ v ∈ out, VR W v) (ho' : ∀ v ∈ out, VR R v) (h0 : ∀ v ∈ ct0, VR R v) (h1 : ∀ v ∈ ct1, VR R v) (hk : KeyF R gsw) :
    Foot R W (cmuxTo O E out g gsw ct0 ct1) Tr :=
  (foot_forUp fun _ => foot_elem.bind fun _ a => foot_elem.bind fun _ b => foot_copyTo (ho _ a) (h0 _ b)).bind fun _ _ =>
    (foot_subGLWETo (pvl fun _ _ _ => by nofun) h1 h0).bind fun _ _ =>
    foot_externalProdGLWETo ho ho' (pvl fun _ _ _ => by nofun) hk

theorem foot_gadgetProdFFTGLWETo {out : ℕ → FLoc} {g : GadgetParams w} {lev : ℕ → ℕ → ℕ} {d : ℕ → FLoc}
    (ho : ∀ i, inF W (out i)) (ho' : ∀ i, inF R (out i)) (hk : ∀ i t, .f (lev i t) ∈ R) (hd : ∀ i, inF R (d i)) :
    Foot R W (gadgetProdFFTGLWETo O E out g lev d) Tr :=
  (foot_fftPolyMulFFTGLWETo ho (fun _ => inF_user (hk _ _)) (hd _)).bind fun _ _ =>
    foot_forUp fun _ => foot_fftPolyMulAddFFTGLWETo ho ho' (fun _ => inF_user (hk _ _)) (hd _)

theorem foot_externalProdFFTGLWETo {out : ℕ → FLoc} {g : GadgetParams w} {gsw : ℕ → ℕ → ℕ → ℕ} {d : ℕ → ℕ → FLoc}
    (ho : ∀ i, inF W (out i)) (ho' : ∀ i, inF R (out i)) (hk : KeyF R gsw) (hd : ∀ i j, inF R (d i j)) :
    Foot R W (externalProdFFTGLWETo O E out g gsw d) Tr :=
  (foot_fftPolyMulFFTGLWETo ho (fun _ => inF_user (hk _ _ _)) (hd _ _)).bind fun _ _ =>
    (foot_forUp fun _ => foot_fftPolyMulAddFFTGLWETo ho ho' (fun _ => inF_user (hk _ _ _)) (hd _ _)).bind fun _ _ =>
    foot_forUp fun _ => foot_forUp fun _ =>
      foot_fftPolyMulAddFFTGLWETo ho ho' (fun _ => inF_user (hk _ _ _)) (hd _ _)

theorem foot_dcmpAcc {d : List Vec} {q t : ℕ} {p : Vec} (hd : ∀ v ∈ d, Priv v) (hp : VR R p) :
    Foot R W (dcmpAcc O E d q t p) Tr :=
  (foot_decomposePolyTo hp (fun v hv => (hd v hv).vr) fun v hv => (hd v hv).vr).bind fun _ _ =>
    foot_forUp fun _ => foot_elem.bind fun _ h => foot_fwdFFTTo (pf fun _ => by nofun) (hd _ h).vr

theorem foot_rotInit {out lut : List Vec} {ct : Vec} (ho : ∀ v ∈ out, VR W v) (hc : VR R ct) (hl : ∀ v ∈ lut, VR R v) :
    Foot R W (rotInit O E out ct lut) Tr :=
  foot_elem.bind fun _ h1 => foot_elem.bind fun _ h2 => (foot_rd hc).bind fun _ _ =>
    (foot_monomialMulPolyTo (ho _ h1) (hl _ h2)).bind fun _ _ =>
    foot_forUp fun _ => foot_elem.bind fun _ h => foot_clear (ho _ h)

theorem foot_dcmpOut {d out : List Vec} (hd : ∀ v ∈ d, Priv v) (ho' : ∀ v ∈ out, VR R v) :
    Foot R W (dcmpOut O E d out) Tr :=
  foot_forUp fun _ => foot_elem.bind fun _ h => foot_dcmpAcc hd (ho' _ h)

theorem foot_accOut {out : List Vec} (ho : ∀ v ∈ out, VR W v) (ho' : ∀ v ∈ out, VR R v) :
    Foot R W (accOut O E out) Tr :=
  foot_forUp fun _ => foot_elem.bind fun _ h =>
    foot_invFFTAddToUnsafe (pf fun _ => by nofun) (pf fun _ => by nofun) (ho _ h) (ho' _ h)

/-- The keys are in `R`. -/
structure Keys (E : Ev w) (R : Set UCell) : Prop where
  brk : ∀ i, KeyF R (E.brk i)
  ksk : KeyW R E.ksk

theorem pfl {S : Set UCell} {c : ℕ → FLoc} (h : ∀ i a, c i ≠ .user a) : ∀ i, inF S (c i) := fun i => pf (h i)

theorem pfl2 {S : Set UCell} {c : ℕ → ℕ → FLoc} (h : ∀ i j a, c i j ≠ .user a) : ∀ i j, inF S (c i j) :=
  fun i j => pf (h i j)

theorem foot_mul0 {q q' : ℕ} : Foot R W (fftPolyMulFFTGLWETo O E (.fftAcc q) (.blkAcc q') .fMono) Tr :=
  foot_fftPolyMulFFTGLWETo (pfl fun _ _ => by nofun) (pfl fun _ _ => by nofun) (pf fun _ => by nofun)

theorem foot_mulAdd0 {q q' : ℕ} : Foot R W (fftPolyMulAddFFTGLWETo O E (.fftAcc q) (.blkAcc q') .fMono) Tr :=
  foot_fftPolyMulAddFFTGLWETo (pfl fun _ _ => by nofun) (pfl fun _ _ => by nofun) (pfl fun _ _ => by nofun) (pf fun _ => by nofun)

theorem foot_sub0 {q q' : ℕ} : Foot R W (subFFTGLWETo O E (.fftAcc q) (.fftAcc q) (.blkAcc q')) Tr :=
  foot_subFFTGLWETo (pfl fun _ _ => by nofun) (pfl fun _ _ => by nofun) (pfl fun _ _ => by nofun)

theorem foot_gp (hk : Keys E R) {q i : ℕ} :
    Foot R W (gadgetProdFFTGLWETo O E (.blkAcc q) E.br (E.brk i 0) (.accDcmp q 0)) Tr :=
  foot_gadgetProdFFTGLWETo (pfl fun _ _ => by nofun) (pfl fun _ _ => by nofun) (hk.brk _ _) (pfl fun _ _ => by nofun)

theorem foot_ep (hk : Keys E R) {q i : ℕ} :
    Foot R W (externalProdFFTGLWETo O E (.blkAcc q) E.br (E.brk i) (.accDcmp q)) Tr :=
  foot_externalProdFFTGLWETo (pfl fun _ _ => by nofun) (pfl fun _ _ => by nofun) (hk.brk _) (pfl2 fun _ _ _ => by nofun)

theorem foot_mono {x : F} : Foot R W (wrF .fMono x : M w F Unit) Tr := foot_wrF (pf fun _ => by nofun)

theorem foot_blindRotateOriginalTo {out lut : List Vec} {ct : Vec} (hk : Keys E R) (ho : ∀ v ∈ out, VR W v)
    (ho' : ∀ v ∈ out, VR R v) (hc : VR R ct) (hl : ∀ v ∈ lut, VR R v) :
    Foot R W (blindRotateOriginalTo O E out ct lut) Tr :=
  foot_slicePoly.bind fun _ hd => (foot_rotInit ho hc hl).bind fun _ _ => foot_elem.bind fun _ h =>
    (foot_dcmpAcc hd (ho' _ h)).bind fun _ _ => (foot_gp hk).bind fun _ _ => (foot_rd hc).bind fun _ _ =>
    foot_mono.bind fun _ _ => foot_mul0.bind fun _ _ => (foot_accOut ho ho').bind fun _ _ =>
    foot_forUp fun _ => (foot_dcmpOut hd ho').bind fun _ _ => (foot_ep hk).bind fun _ _ => (foot_rd hc).bind fun _ _ =>
      foot_mono.bind fun _ _ => foot_mul0.bind fun _ _ => foot_accOut ho ho'

theorem foot_blindRotateBlockTo {out lut : List Vec} {ct : Vec} (hk : Keys E R) (ho : ∀ v ∈ out, VR W v)
    (ho' : ∀ v ∈ out, VR R v) (hc : VR R ct) (hl : ∀ v ∈ lut, VR R v) :
    Foot R W (blindRotateBlockTo O E out ct lut) Tr :=
  foot_slicePoly.bind fun _ hd => (foot_rotInit ho hc hl).bind fun _ _ => foot_elem.bind fun _ h =>
    (foot_dcmpAcc hd (ho' _ h)).bind fun _ _ => (foot_gp hk).bind fun _ _ => (foot_rd hc).bind fun _ _ =>
    foot_mono.bind fun _ _ => foot_mul0.bind fun _ _ =>
    (foot_forUp fun _ => (foot_gp hk).bind fun _ _ => (foot_rd hc).bind fun _ _ => foot_mono.bind fun _ _ =>
      foot_mulAdd0).bind fun _ _ => (foot_accOut ho ho').bind fun _ _ =>
    foot_forUp fun _ => (foot_dcmpOut hd ho').bind fun _ _ => (foot_ep hk).bind fun _ _ => (foot_rd hc).bind fun _ _ =>
      foot_mono.bind fun _ _ => foot_mul0.bind fun _ _ =>
      (foot_forUp fun _ => (foot_ep hk).bind fun _ _ => (foot_rd hc).bind fun _ _ => foot_mono.bind fun _ _ =>
        foot_mulAdd0).bind fun _ _ => foot_accOut ho ho'

theorem foot_extRotSet {a : ℕ} : Foot R W (extRotSet O E a) Tr := by
  unfold extRotSet
  dsimp only
  split
  · exact foot_mono.bind fun _ _ => foot_forUp fun _ => foot_mul0
  · exact foot_mono.bind fun _ _ => (foot_forUp fun _ => foot_mul0.bind fun _ _ => foot_sub0).bind fun _ _ =>
      foot_mono.bind fun _ _ => foot_forUp fun _ => foot_mul0.bind fun _ _ => foot_sub0

theorem foot_extRotAdd {a : ℕ} : Foot R W (extRotAdd O E a) Tr := by
  unfold extRotAdd
  dsimp only
  split
  · exact foot_mono.bind fun _ _ => foot_forUp fun _ => foot_mulAdd0
  · exact foot_mono.bind fun _ _ => (foot_forUp fun _ => foot_mulAdd0.bind fun _ _ => foot_sub0).bind fun _ _ =>
      foot_mono.bind fun _ _ => foot_forUp fun _ => foot_mulAdd0.bind fun _ _ => foot_sub0

theorem foot_extInv : Foot R W (extInv O E) Tr :=
  foot_forUp fun _ => foot_forUp fun _ => foot_invFFTAddToUnsafe (pf fun _ => by nofun) (pf fun _ => by nofun)
    (pv fun _ _ => by nofun) (pv fun _ _ => by nofun)

theorem foot_extDcmp {d : List Vec} (hd : ∀ v ∈ d, Priv v) : Foot R W (extDcmp O E d) Tr :=
  foot_forUp fun _ => foot_forUp fun _ => foot_dcmpAcc hd (pv fun _ _ => by nofun)

theorem foot_extLast (hk : Keys E R) {b : Bool} {j a : ℕ} : Foot R W (extLast O E b j a) Tr := by
  unfold extLast
  dsimp only
  split
  · refine (foot_ep hk).bind fun _ _ => foot_mono.bind fun _ _ => ?_
    split
    · exact foot_mul0
    · exact foot_mulAdd0
  · refine (foot_ep hk).bind fun _ _ => (foot_ep hk).bind fun _ _ => foot_mono.bind fun _ _ => ?_
    cases b
    · exact foot_mulAdd0.bind fun _ _ => foot_sub0
    · exact foot_mul0.bind fun _ _ => foot_sub0

theorem foot_blindRotateExtendedTo {out lut : List Vec} {ct : Vec} (hk : Keys E R) (ho : ∀ v ∈ out, VR W v)
    (hc : VR R ct) (hl : ∀ v ∈ lut, VR R v) : Foot R W (blindRotateExtendedTo O E out ct lut) Tr := by
  have ha : ∀ S q t, VR S (accPoly E q t) := fun S q t => pv fun _ _ => by nofun
  exact foot_slicePoly.bind fun _ hd => (foot_rd hc).bind fun _ _ =>
    (foot_forUp fun _ => foot_elem.bind fun _ h => foot_monomialMulPolyTo (ha _ _ _) (hl _ h)).bind fun _ _ =>
    (foot_forUp fun _ => foot_elem.bind fun _ h => foot_monomialMulPolyTo (ha _ _ _) (hl _ h)).bind fun _ _ =>
    (foot_forUp fun _ => foot_forUp fun _ => foot_clear (ha _ _ _)).bind fun _ _ =>
    (foot_forUp fun _ => foot_dcmpAcc hd (ha _ _ _)).bind fun _ _ => (foot_rd hc).bind fun _ _ =>
    (foot_forUp fun _ => foot_gp hk).bind fun _ _ => foot_extRotSet.bind fun _ _ =>
    (foot_forUp fun _ => (foot_rd hc).bind fun _ _ => (foot_forUp fun _ => foot_gp hk).bind fun _ _ =>
      foot_extRotAdd).bind fun _ _ => foot_extInv.bind fun _ _ =>
    (foot_forUp fun _ => (foot_extDcmp hd).bind fun _ _ => (foot_rd hc).bind fun _ _ =>
      (foot_forUp fun _ => foot_ep hk).bind fun _ _ => foot_extRotSet.bind fun _ _ =>
      (foot_forUp fun _ => (foot_rd hc).bind fun _ _ => (foot_forUp fun _ => foot_ep hk).bind fun _ _ =>
        foot_extRotAdd).bind fun _ _ => foot_extInv).bind fun _ _ =>
    (foot_extDcmp hd).bind fun _ _ => (foot_rd hc).bind fun _ _ => (foot_extLast hk).bind fun _ _ =>
    (foot_forUp fun _ => (foot_rd hc).bind fun _ _ => foot_extLast hk).bind fun _ _ =>
    foot_forUp fun _ => (foot_invFFTAddToUnsafe (pf fun _ => by nofun) (pf fun _ => by nofun) (ha _ _ _) (ha _ _ _)).bind
      fun _ _ => foot_elem.bind fun _ h => foot_copyTo (ho _ h) (ha _ _ _)

theorem foot_blindRotateTo {out lut : List Vec} {ct : Vec} (hk : Keys E R) (ho : ∀ v ∈ out, VR W v)
    (ho' : ∀ v ∈ out, VR R v) (hc : VR R ct) (hl : ∀ v ∈ lut, VR R v) :
    Foot R W (blindRotateTo O E out ct lut) Tr := by
  unfold blindRotateTo
  split
  · exact foot_blindRotateExtendedTo hk ho hc hl
  · split
    · exact foot_blindRotateBlockTo hk ho ho' hc hl
    · exact foot_blindRotateOriginalTo hk ho ho' hc hl

theorem foot_defaultKeySwitchTo {out ct : Vec} (hk : Keys E R) (ho : VR W out) (ho' : VR R out) (hc : VR R ct) :
    Foot R W (defaultKeySwitchTo E out ct : M w F Unit) Tr := by
  refine foot_sliceScalar.bind fun c h => ?_
  exact foot_check'.bind fun _ hn => (foot_copyTo (b := ⟨ct.cell, E.n + 1⟩) ho fun i (hi : i < E.n + 1) =>
      hc i (lt_of_lt_of_le hi (of_decide_eq_true hn))).bind fun _ _ =>
    foot_forUp fun _ => (foot_rd hc).bind fun _ _ => (foot_decomposeScalarTo h.vr h.vr).bind fun _ _ =>
    foot_forUp fun _ => (foot_rd h.vr).bind fun _ _ => foot_scalarMulAddTo ho ho' (hk.ksk _ _)

theorem foot_extractTo {ct : List Vec} {out : Vec} (hc : ∀ v ∈ ct, VR R v) (ho : VR W out) :
    Foot R W (extractTo ct out : M w F Unit) Tr :=
  foot_elem.bind fun _ h => (foot_rd (hc _ h)).bind fun _ _ => (foot_wr ho).bind fun _ _ =>
    foot_forUp fun _ => foot_elem.bind fun _ h => (foot_rd (hc _ h)).bind fun _ _ => (foot_wr ho).bind fun _ _ =>
    foot_forUp fun _ => (foot_rd (hc _ h)).bind fun _ _ => foot_wr ho

theorem foot_bootstrapLUTTo {out ct : Vec} {lut : List Vec} (hk : Keys E R) (ho : VR W out) (ho' : VR R out)
    (hc : VR R ct) (hl : ∀ v ∈ lut, VR R v) : Foot R W (bootstrapLUTTo O E out ct lut) Tr := by
  have hr : ∀ S, ∀ v ∈ ctRotate E, VR S v := fun S => pvl fun _ _ _ => by nofun
  unfold bootstrapLUTTo
  split
  · exact (foot_defaultKeySwitchTo hk (pv fun _ _ => by nofun) (pv fun _ _ => by nofun) hc).bind fun _ _ =>
      (foot_blindRotateTo hk (hr W) (hr R) (pv fun _ _ => by nofun) hl).bind fun _ _ => foot_extractTo (hr R) ho
  · exact (foot_blindRotateTo hk (hr W) (hr R) hc hl).bind fun _ _ =>
      (foot_extractTo (hr R) (pv fun _ _ => by nofun)).bind fun _ _ =>
      foot_defaultKeySwitchTo hk ho ho' (pv fun _ _ => by nofun)

theorem foot_genLUTFullTo {out : List Vec} {p : ℕ} {fn : ℕ → BitVec w} (ho : ∀ v ∈ out, VR W v) :
    Foot R W (genLUTFullTo E out p fn : M w F Unit) Tr := by
  refine (foot_rdAll (pv fun _ _ => by nofun)).bind fun old _ => ?_
  split
  · exact foot_panic
  · exact (foot_forUp fun _ => foot_elem.bind fun _ _ => foot_wr (pv fun _ _ => by nofun)).bind fun _ _ =>
      foot_forUp fun _ => foot_forUp fun _ => foot_elem.bind fun _ h =>
      (foot_rd (pv fun _ _ => by nofun)).bind fun _ _ => foot_wr (ho _ h)

theorem foot_bootstrapFuncTo {out ct : Vec} {fn : ℕ → BitVec 64} (hk : Keys E R) (ho : VR W out) (ho' : VR R out)
    (hc : VR R ct) : Foot R W (bootstrapFuncTo O E out ct fn) Tr :=
  (foot_genLUTFullTo (pvl fun _ _ _ => by nofun)).bind fun _ _ =>
    foot_bootstrapLUTTo hk ho ho' hc (pvl fun _ _ _ => by nofun)

end Tfhe.Scratch
