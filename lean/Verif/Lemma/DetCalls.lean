import Verif.Lemma.Det
import Verif.Props.C15

/-!
# The calls of the evaluator, from memories that agree on the memory of the caller

Every function of `Verif/Model/Scratch.lean` reads only the memory of the caller and cells of the
buffers that it has written before.
-/
namespace Tfhe.Scratch

variable {w : ℕ} {F : Type} {O : Ops w F} {E : Ev w}

/-- The memory of the caller is agreed on. -/
structure User (K : Set Loc) : Prop where
  wd : ∀ a, .w (.user a) ∈ K
  ft : ∀ a, .f (.user a) ∈ K

theorem User.mono {K K' : Set Loc} (h : K ⊆ K') (hu : User K) : User K' := ⟨fun a => h (hu.wd a), fun a => h (hu.ft a)⟩
theorem User.rd {K : Set Loc} (hu : User K) (v : UVec) : Rd K v.vec := fun _ _ => hu.wd _
theorem User.rdF {K : Set Loc} (hu : User K) (f : ℕ → ℕ) : RdF E K fun t => .user (f t) := fun _ _ => hu.ft _

/-- The buffers of the decomposer are large enough for the parameters of the evaluator. -/
structure Bufs (E : Ev w) (K : Set Loc) : Prop where
  c : .cl E.ks.level ∈ K
  p : .pl E.br.level ∈ K

theorem Bufs.mono {K K' : Set Loc} (h : K ⊆ K') (hb : Bufs E K) : Bufs E K' := ⟨h hb.c, h hb.p⟩

theorem rdF_of (K : Set Loc) (l : ℕ → FLoc) (h : ∀ t, .f (l t) ∈ K) : RdF E K l := fun t _ => h t

/-! ### LWE -/

theorem det_keySwitchLWETo {K : Set Loc} {out ct : Vec} {g : GadgetParams w} {nIn : ℕ} {ksk : ℕ → ℕ → UVec}
    (hu : User K) (ho : Rd K out) (hc : Rd K ct) :
    Det K (keySwitchLWETo E out ct g nIn ksk : M w F Unit) Any := by
  refine (det_scalarBuffer g).bind fun c K1 h1 ⟨e, hcl⟩ => ?_
  subst e
  refine (det_rd fun hi => h1 (hc 1 hi)).bind fun x K2 h2 _ => ?_
  refine (det_decomposeScalarTo fun i hi => ok_cDcmp (h2 hcl) hi).bind fun _ K3 h3 hd => ?_
  have hd' : ∀ j, j < g.level → .w (.cDcmp j) ∈ K3 := fun j hj => hd j (by omega)
  refine (det_rd fun hi => hd' 0 hi).bind fun d K4 h4 _ => ?_
  have hu4 : User K4 := hu.mono (h1.trans (h2.trans (h3.trans h4)))
  refine (det_scalarMulTo (hu4.rd _) fun i hi => .inr trivial).bind fun _ K5 h5 hp => ?_
  refine (Det.forUp_any fun j K' hK _ _ => ?_).bind fun _ K6 h6 _ => ?_
  · refine (det_rd fun hi => hK (h5 (h4 (hd' j hi)))).bind fun d K'' hK' _ => ?_
    exact det_scalarMulAddTo (((hu4.mono h5).mono (hK.trans hK')).rd _) (hp.mono (hK.trans hK'))
  refine (Det.forUp_any fun i K' hK _ _ => ?_).bind fun _ K7 h7 _ => ?_
  · have hK6 : K ⊆ K6 := h1.trans (h2.trans (h3.trans (h4.trans (h5.trans h6))))
    refine (det_rd fun hi => hK (hK6 (hc (i + 1) hi))).bind fun x K'' hK' _ => ?_
    refine (det_decomposeScalarTo fun i hi =>
      ok_cDcmp (hK' (hK (h6 (h5 (h4 (h3 (h2 hcl))))))) hi).bind fun _ L1 l1 hd => ?_
    refine Det.forUp_any fun j L2 l2 _ _ => ?_
    refine (det_rd fun hi => l2 (hd j (by simp only at hi; omega))).bind fun d L3 l3 _ => ?_
    exact det_scalarMulAddTo ((hu.mono (hK6.trans (hK.trans (hK'.trans (l1.trans (l2.trans l3)))))).rd _)
      (hp.mono (h6.trans (hK.trans (hK'.trans (l1.trans (l2.trans l3))))))
  have hK7 : K ⊆ K7 := h1.trans (h2.trans (h3.trans (h4.trans (h5.trans (h6.trans h7)))))
  have hp7 := hp.mono (h6.trans h7)
  refine (det_rd fun hi => hK7 (hc 0 hi)).bind fun x K8 h8 _ => ?_
  refine (det_rd fun hi => h8 (hp7 0 hi)).bind fun y K9 h9 _ => ?_
  refine (det_wr fun hi => .inl (h9 (h8 (hK7 (ho 0 hi))))).bind fun _ K10 h10 _ => ?_
  refine (det_copyTo (fun i hi => ?_) fun i hi => ?_).any
  · exact h10 (h9 (h8 (hp7 (i + 1) (by simp only [prodLWE] at hi ⊢; omega))))
  · exact .inl (h10 (h9 (h8 (hK7 (ho (i + 1) (by simp only at hi; omega))))))

theorem det_gadgetProdLWETo {K : Set Loc} {mode : Mode} {out : Vec} {g : GadgetParams w} {lev : ℕ → UVec} {x : BitVec w}
    (hu : User K) (ho : Rd K out) : Det K (gadgetProdLWETo mode out g lev x : M w F Unit) Any := by
  refine (det_scalarBuffer g).bind fun c K1 h1 ⟨e, hcl⟩ => ?_
  subst e
  refine (det_decomposeScalarTo fun i hi => ok_cDcmp hcl hi).bind fun _ K3 h3 hd => ?_
  have hd' : ∀ j, j < g.level → .w (.cDcmp j) ∈ K3 := fun j hj => hd j (by omega)
  have hu3 : User K3 := hu.mono (h1.trans h3)
  have ho3 := ho.mono (h1.trans h3)
  cases mode
  · refine (det_rd fun hi => hd' 0 hi).bind fun d K4 h4 _ => ?_
    refine (det_scalarMulTo ((hu3.mono h4).rd _) (ho3.mono h4).wr).bind fun _ K5 h5 hp => ?_
    refine Det.forUp_any fun j K' hK _ _ => ?_
    refine (det_rd fun hi => hK (h5 (h4 (hd' j hi)))).bind fun d K'' hK' _ => ?_
    exact det_scalarMulAddTo ((hu3.mono (h4.trans (h5.trans (hK.trans hK')))).rd _) (hp.mono (hK.trans hK'))
  · refine Det.forUp_any fun j K' hK _ _ => ?_
    refine (det_rd fun hi => hK (hd' j hi)).bind fun d K'' hK' _ => ?_
    exact det_scalarMulAddTo ((hu3.mono (hK.trans hK')).rd _) (ho3.mono (hK.trans hK'))
  · refine Det.forUp_any fun j K' hK _ _ => ?_
    refine (det_rd fun hi => hK (hd' j hi)).bind fun d K'' hK' _ => ?_
    exact det_scalarMulSubTo ((hu3.mono (hK.trans hK')).rd _) (ho3.mono (hK.trans hK'))

theorem det_externalProdLWETo {K : Set Loc} {mode : Mode} {out ct : Vec} {g : GadgetParams w} {gsw : ℕ → ℕ → UVec}
    (hu : User K) (ho : Rd K out) (hc : Rd K ct) :
    Det K (externalProdLWETo E mode out g gsw ct : M w F Unit) Any := by
  refine (det_scalarBuffer g).bind fun c K1 h1 ⟨e, hcl⟩ => ?_
  subst e
  refine (det_rd fun hi => h1 (hc 0 hi)).bind fun x K2 h2 _ => ?_
  refine (det_decomposeScalarTo fun i hi => ok_cDcmp (h2 hcl) hi).bind fun _ K3 h3 hd => ?_
  have hd' : ∀ j, j < g.level → .w (.cDcmp j) ∈ K3 := fun j hj => hd j (by omega)
  refine (det_rd fun hi => hd' 0 hi).bind fun d K4 h4 _ => ?_
  have hu4 : User K4 := hu.mono (h1.trans (h2.trans (h3.trans h4)))
  refine (det_scalarMulTo (hu4.rd _) fun i hi => .inr trivial).bind fun _ K5 h5 hp => ?_
  refine (Det.forUp_any fun j K' hK _ _ => ?_).bind fun _ K6 h6 _ => ?_
  · refine (det_rd fun hi => hK (h5 (h4 (hd' j hi)))).bind fun d K'' hK' _ => ?_
    exact det_scalarMulAddTo (((hu4.mono h5).mono (hK.trans hK')).rd _) (hp.mono (hK.trans hK'))
  refine (Det.forUp_any fun i K' hK _ _ => ?_).bind fun _ K7 h7 _ => ?_
  · have hK6 : K ⊆ K6 := h1.trans (h2.trans (h3.trans (h4.trans (h5.trans h6))))
    refine (det_rd fun hi => hK (hK6 (hc i hi))).bind fun x K'' hK' _ => ?_
    refine (det_decomposeScalarTo fun i hi =>
      ok_cDcmp (hK' (hK (h6 (h5 (h4 (h3 (h2 hcl))))))) hi).bind fun _ L1 l1 hd => ?_
    refine Det.forUp_any fun j L2 l2 _ _ => ?_
    refine (det_rd fun hi => l2 (hd j (by simp only at hi; omega))).bind fun d L3 l3 _ => ?_
    exact det_scalarMulAddTo ((hu.mono (hK6.trans (hK.trans (hK'.trans (l1.trans (l2.trans l3)))))).rd _)
      (hp.mono (h6.trans (hK.trans (hK'.trans (l1.trans (l2.trans l3))))))
  have hK7 : K ⊆ K7 := h1.trans (h2.trans (h3.trans (h4.trans (h5.trans (h6.trans h7)))))
  have hp7 := hp.mono (h6.trans h7)
  have ho7 := ho.mono hK7
  cases mode
  · exact (det_copyTo hp7 ho7.wr).any
  · exact (det_addTo ho7 hp7 ho7.wr).any
  · exact (det_subTo ho7 hp7 ho7.wr).any

/-! ### GLWE -/

theorem det_fourierDecomposePolyTo {K : Set Loc} {g : GadgetParams w} {out : List FLoc} {p : Vec} (hp : Rd K p)
    (hN : E.N ≤ p.len) (ho : ∀ l ∈ out, okF K l) :
    Det K (fourierDecomposePolyTo O E g out p) fun _ K' =>
      ∀ j, j < g.level → ∀ l, out[j]? = some l → .f l ∈ K' := by
  refine (det_polyBuffer E.N g).bind fun d K1 h1 ⟨e, hpl⟩ => ?_
  subst e
  refine (det_decomposeBuf (hp.mono h1) hN hpl).bind fun _ K2 h2 hd => ?_
  refine (Det.forUp_all (fun j K' => ∀ l, out[j]? = some l → .f l ∈ K') (fun i _ _ h h' l e => h (h' l e))
    fun i K' hK _ _ _ => ?_).mono fun _ K' _ h j hj => h j (Nat.zero_le _) hj
  refine det_elem.bind fun l K3 h3 e => det_elem.bind fun v K4 h4 e' => ?_
  refine (det_fwdFFTTo ((hd i v e').mono (hK.trans (h3.trans h4))) ?_).mono fun _ K' _ h l' e'' => ?_
  · exact okF_mono (h1.trans (h2.trans (hK.trans (h3.trans h4)))) (ho l (List.mem_of_getElem? e))
  · rw [e] at e''; cases e''; exact h.2

theorem det_fourierBuf {K : Set Loc} {g : GadgetParams w} {p : Vec} (hp : Rd K p)
    (hN : E.N ≤ p.len) (hK : .fl g.level ∈ K) :
    Det K (fourierDecomposePolyTo O E g ((List.range g.level).map FLoc.fpDcmp) p) fun _ K' =>
      ∀ (j : ℕ) (l : FLoc), ((List.range g.level).map FLoc.fpDcmp)[j]? = some l → .f l ∈ K' := by
  refine (det_fourierDecomposePolyTo hp hN fun l hl => ?_).mono fun _ K' _ h j l e => h j (fpolys_get e).1 l e
  rw [List.mem_map] at hl
  obtain ⟨j, hj, rfl⟩ := hl
  exact okF_fpDcmp hK (List.mem_range.mp hj)

theorem det_keySwitchGLWETo {K : Set Loc} {out ct : List Vec} {g : GadgetParams w} {kIn : ℕ} {ksk : ℕ → ℕ → ℕ → ℕ}
    (hu : User K) (ho : ∀ v ∈ out, Rd K v) (hc : ∀ v ∈ ct, Rd K v ∧ E.N ≤ v.len) :
    Det K (keySwitchGLWETo O E out ct g kIn ksk) Any := by
  refine (det_fftPolyBuffer O g).bind fun fd K1 h1 ⟨e, hfl⟩ => ?_
  subst e
  refine det_elem.bind fun v K2 h2 ev => ?_
  have hv := hc v (List.mem_of_getElem? ev)
  refine (det_fourierBuf (hv.1.mono (h1.trans h2)) hv.2 (h2 hfl)).bind fun _ K3 h3 hd => ?_
  refine det_elem.bind fun l K4 h4 el => ?_
  have hu4 : User K4 := hu.mono (h1.trans (h2.trans (h3.trans h4)))
  refine (det_fftPolyMul (hu4.rdF _) (h4 (hd 0 l el)) fun t _ => .inr trivial).bind fun _ K5 h5 hp => ?_
  refine (Det.forUp_any fun j K' hK _ _ => ?_).bind fun _ K6 h6 _ => ?_
  · refine det_elem.bind fun l K'' hK' el => ?_
    exact det_fftPolyMulAdd ((hu4.mono (h5.trans (hK.trans hK'))).rdF _) (hK' (hK (h5 (h4 (hd j l el)))))
      (hp.mono (hK.trans hK'))
  have hK6 : K ⊆ K6 := h1.trans (h2.trans (h3.trans (h4.trans (h5.trans h6))))
  refine (Det.forUp_any fun i K' hK _ _ => ?_).bind fun _ K7 h7 _ => ?_
  · refine det_elem.bind fun v L0 l0 ev => ?_
    have hv := hc v (List.mem_of_getElem? ev)
    refine (det_fourierBuf (hv.1.mono (hK6.trans (hK.trans l0))) hv.2
      (l0 (hK (h6 (h5 (h4 (h3 (h2 hfl)))))))).bind fun _ L1 l1 hd => ?_
    refine Det.forUp_any fun j L2 l2 _ _ => det_elem.bind fun l L3 l3 el => ?_
    exact det_fftPolyMulAdd ((hu.mono (hK6.trans (hK.trans (l0.trans (l1.trans (l2.trans l3)))))).rdF _)
      (l3 (l2 (hd j l el))) (hp.mono (h6.trans (hK.trans (l0.trans (l1.trans (l2.trans l3))))))
  have hK7 := hK6.trans h7
  refine det_elem.bind fun o K8 h8 eo => det_elem.bind fun c K9 h9 ec => ?_
  have hK9 := hK7.trans (h8.trans h9)
  refine (det_copyTo ((hc c (List.mem_of_getElem? ec)).1.mono hK9)
    ((ho o (List.mem_of_getElem? eo)).mono hK9).wr).bind fun _ K10 h10 _ => ?_
  refine det_elem.bind fun o K11 h11 eo => ?_
  have hK11 := hK9.trans (h10.trans h11)
  have hp11 := hp.mono (h6.trans (h7.trans (h8.trans (h9.trans (h10.trans h11)))))
  refine (det_invFFTAddToUnsafe (hp11 0 (by omega)) ((ho o (List.mem_of_getElem? eo)).mono hK11)).bind
    fun _ K12 h12 _ => ?_
  refine Det.forUp_any fun i K' hK _ hi => det_elem.bind fun o K'' hK' eo => ?_
  exact (det_invFFTToUnsafe (hK' (hK (h12 (hp11 (i + 1) (by omega)))))
    ((ho o (List.mem_of_getElem? eo)).mono (hK11.trans (h12.trans (hK.trans hK')))).wr).any

theorem det_gadgetProdGLWETo {K : Set Loc} {mode : Mode} {out : List Vec} {g : GadgetParams w} {lev : ℕ → ℕ → ℕ} {p : Vec}
    (hu : User K) (ho : ∀ v ∈ out, Rd K v) (hp : Rd K p) (hN : E.N ≤ p.len) :
    Det K (gadgetProdGLWETo O E mode out g lev p) Any := by
  refine (det_polyBuffer E.N g).bind fun d K1 h1 ⟨e, hpl⟩ => ?_
  subst e
  refine (det_fftPolyBuffer O g).bind fun fd K2 h2 ⟨e, hfl⟩ => ?_
  subst e
  refine (det_decomposeBuf (hp.mono (h1.trans h2)) hN (h2 hpl)).bind fun _ K3 h3 hd => ?_
  refine (Det.forUp_all (fun j K' => ∀ (l : FLoc), ((List.range g.level).map FLoc.fpDcmp)[j]? = some l → .f l ∈ K')
    (fun i _ _ h h' l e => h (h' l e)) fun i K' hK _ _ _ => ?_).bind fun _ K4 h4 hfd => ?_
  · refine det_elem.bind fun l L1 l1 el => det_elem.bind fun v L2 l2 ev => ?_
    obtain ⟨hi, rfl⟩ := fpolys_get el
    refine (det_fwdFFTTo ((hd i v ev).mono (hK.trans (l1.trans l2)))
      (okF_fpDcmp (l2 (l1 (hK (h3 hfl)))) hi)).mono fun _ K' _ h l' e'' => ?_
    rw [el] at e''; cases e''; exact h.2
  have hfd' : ∀ (j : ℕ) (l : FLoc), ((List.range g.level).map FLoc.fpDcmp)[j]? = some l → .f l ∈ K4 :=
    fun j l e => hfd j (Nat.zero_le _) (fpolys_get e).1 l e
  have hu4 : User K4 := hu.mono (h1.trans (h2.trans (h3.trans h4)))
  refine det_elem.bind fun l K5 h5 el => ?_
  refine (det_fftPolyMul ((hu4.mono h5).rdF _) (h5 (hfd' 0 l el)) fun t _ => .inr trivial).bind fun _ K6 h6 hp => ?_
  refine (Det.forUp_any fun j K' hK _ _ => ?_).bind fun _ K7 h7 _ => ?_
  · refine det_elem.bind fun l K'' hK' el => ?_
    exact det_fftPolyMulAdd ((hu4.mono (h5.trans (h6.trans (hK.trans hK')))).rdF _)
      (hK' (hK (h6 (h5 (hfd' j l el))))) (hp.mono (hK.trans hK'))
  refine Det.forUp_any fun i K' hK _ hi => det_elem.bind fun o K'' hK' eo => ?_
  exact det_invFFTMode (hK' (hK (h7 (hp i hi)))) ((ho o (List.mem_of_getElem? eo)).mono
    (h1.trans (h2.trans (h3.trans (h4.trans (h5.trans (h6.trans (h7.trans (hK.trans hK')))))))))

theorem det_externalProdGLWETo {K : Set Loc} {mode : Mode} {out ct : List Vec} {g : GadgetParams w}
    {gsw : ℕ → ℕ → ℕ → ℕ} (hu : User K) (ho : ∀ v ∈ out, Rd K v) (hc : ∀ v ∈ ct, Rd K v ∧ E.N ≤ v.len) :
    Det K (externalProdGLWETo O E mode out g gsw ct) Any := by
  refine (det_polyBuffer E.N g).bind fun d K1 h1 ⟨e, hpl⟩ => ?_
  subst e
  refine det_elem.bind fun v K2 h2 ev => ?_
  have hv := hc v (List.mem_of_getElem? ev)
  refine (det_decomposeBuf (hv.1.mono (h1.trans h2)) hv.2 (h2 hpl)).bind fun _ K3 h3 hd => ?_
  refine det_elem.bind fun l K4 h4 el => ?_
  have hu4 : User K4 := hu.mono (h1.trans (h2.trans (h3.trans h4)))
  refine (det_polyMul (hu4.rdF _) ((hd 0 l el).mono h4) fun t _ => .inr trivial).bind fun _ K5 h5 hp => ?_
  refine (Det.forUp_any fun j K' hK _ _ => ?_).bind fun _ K6 h6 _ => ?_
  · refine det_elem.bind fun l K'' hK' el => ?_
    exact det_polyMulAdd ((hu4.mono (h5.trans (hK.trans hK'))).rdF _)
      ((hd j l el).mono (h4.trans (h5.trans (hK.trans hK')))) (hp.mono (hK.trans hK'))
  have hK6 : K ⊆ K6 := h1.trans (h2.trans (h3.trans (h4.trans (h5.trans h6))))
  refine (Det.forUp_any fun i K' hK _ _ => ?_).bind fun _ K7 h7 _ => ?_
  · refine det_elem.bind fun v L0 l0 ev => ?_
    have hv := hc v (List.mem_of_getElem? ev)
    refine (det_decomposeBuf (hv.1.mono (hK6.trans (hK.trans l0))) hv.2
      (l0 (hK (h6 (h5 (h4 (h3 (h2 hpl)))))))).bind fun _ L1 l1 hd => ?_
    refine Det.forUp_any fun j L2 l2 _ _ => det_elem.bind fun l L3 l3 el => ?_
    exact det_polyMulAdd ((hu.mono (hK6.trans (hK.trans (l0.trans (l1.trans (l2.trans l3)))))).rdF _)
      ((hd j l el).mono (l2.trans l3)) (hp.mono (h6.trans (hK.trans (l0.trans (l1.trans (l2.trans l3))))))
  refine Det.forUp_any fun i K' hK _ hi => det_elem.bind fun o K'' hK' eo => ?_
  exact det_invFFTMode (hK' (hK (h7 (h6 (hp i hi))))) ((ho o (List.mem_of_getElem? eo)).mono
    (hK6.trans (h7.trans (hK.trans hK'))))

theorem det_cmuxTo {K : Set Loc} {out ct0 ct1 : List Vec} {g : GadgetParams w} {gsw : ℕ → ℕ → ℕ → ℕ}
    (hu : User K) (ho : ∀ v ∈ out, Rd K v) (h0 : ∀ v ∈ ct0, Rd K v) (h1 : ∀ v ∈ ct1, Rd K v) :
    Det K (cmuxTo O E out g gsw ct0 ct1) Any := by
  refine (Det.forUp_any fun i K' hK _ hi => ?_).bind fun _ K1 g1 _ => ?_
  · refine det_elem.bind fun o L1 l1 eo => det_elem.bind fun c L2 l2 ec => ?_
    have hK2 := hK.trans (l1.trans l2)
    exact (det_copyTo ((h0 c (List.mem_of_getElem? ec)).mono hK2)
      ((ho o (List.mem_of_getElem? eo)).mono hK2).wr).any
  refine (Det.forUp_all (fun i K' => Rd K' ⟨.cmux i, E.N⟩) (fun i _ _ h h' => h'.mono h)
    fun i K' hK _ hi _ => ?_).bind fun _ K2 g2 hcm => ?_
  · refine det_elem.bind fun o L1 l1 eo => det_elem.bind fun x L2 l2 ex => det_elem.bind fun y L3 l3 ey => ?_
    have hoE : o = ⟨.cmux i, E.N⟩ := by
      unfold ctCMux at eo
      rw [List.getElem?_map, List.getElem?_range hi] at eo
      exact (Option.some.inj eo).symm
    refine det_check.bind fun _ L4 l4 _ => ?_
    have hK2 := g1.trans (hK.trans (l1.trans (l2.trans (l3.trans l4))))
    refine (det_subTo ((h1 x (List.mem_of_getElem? ex)).mono hK2) ((h0 y (List.mem_of_getElem? ey)).mono hK2)
      ?_).mono fun _ K' _ h => ?_
    · rw [hoE]; exact fun _ _ => .inr trivial
    · rwa [hoE] at h
  refine det_externalProdGLWETo (hu.mono (g1.trans g2)) (fun v hv => (ho v hv).mono (g1.trans g2)) fun v hv => ?_
  unfold ctCMux at hv
  rw [List.mem_map] at hv
  obtain ⟨t, ht, rfl⟩ := hv
  exact ⟨hcm t (Nat.zero_le _) (List.mem_range.mp ht), le_rfl⟩

end Tfhe.Scratch
