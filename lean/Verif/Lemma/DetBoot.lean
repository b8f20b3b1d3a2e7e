import Verif.Lemma.DetCalls
import Verif.Props.C51

/-!
# Bootstrapping from memories that agree on the memory of the caller
-/
namespace Tfhe.Scratch

variable {w : ℕ} {F : Type} {O : Ops w F} {E : Ev w}

/-- Every level of the decomposition of one polynomial of the accumulator is agreed on. -/
def RdD (E : Ev w) (K : Set Loc) (q t : ℕ) : Prop := ∀ l, l < E.br.level → .f (.accDcmp q t l) ∈ K

theorem RdD.mono {K K' : Set Loc} (h : K ⊆ K') {q t : ℕ} (hv : RdD E K q t) : RdD E K' q t := fun l hl => h (hv l hl)

theorem okF_scratch_acc {K : Set Loc} {q : ℕ} : WrF E K (.fftAcc q) := fun _ _ => .inr trivial
theorem okF_scratch_blk {K : Set Loc} {q : ℕ} : WrF E K (.blkAcc q) := fun _ _ => .inr trivial

theorem det_dcmpAcc {K : Set Loc} {q t : ℕ} {p : Vec} (hb : Bufs E K) (hp : Rd K p) (hN : E.N ≤ p.len) :
    Det K (dcmpAcc O E (polys E.N E.br.level) q t p) fun _ K' => RdD E K' q t := by
  refine (det_decomposeBuf hp hN hb.p).bind fun _ K1 h1 hd => ?_
  refine (Det.forUp_all (fun l K' => .f (.accDcmp q t l) ∈ K') (fun i _ _ h h' => h h')
    fun l K' hK _ _ _ => ?_).mono fun _ K' _ h l hl => h l (Nat.zero_le _) hl
  refine det_elem.bind fun v L1 l1 ev => ?_
  exact (det_fwdFFTTo ((hd l v ev).mono (hK.trans l1)) (.inr trivial)).mono fun _ K' _ h => h.2

theorem det_gadgetProdFFT {K : Set Loc} {out : ℕ → FLoc} {lev : ℕ → ℕ → ℕ} {q t : ℕ} (hE : 0 < E.br.level)
    (hu : User K) (hd : RdD E K q t) (ho : WrF E K out) :
    Det K (gadgetProdFFTGLWETo O E out E.br lev (.accDcmp q t)) fun _ K' => RdF E K' out := by
  refine (det_fftPolyMul (hu.rdF _) (hd 0 hE) ho).bind fun _ K1 h1 hr => ?_
  refine Det.mono (Q := fun _ K' => RdF E K' out) ?_ fun _ _ _ h => h
  have := Det.forUp (a := 1) (b := E.br.level) (K := K1)
    (body := fun i => fftPolyMulAddFFTGLWETo O E out (fun t => .user (lev i t)) (.accDcmp q t i))
    (fun _ K' => RdF E K' out) hr
    fun i K' hK _ hi hr' => (det_fftPolyMulAdd ((hu.mono (h1.trans hK)).rdF _) (hK (h1 (hd i hi))) hr').mono
      fun _ K'' hK' _ => hr'.mono hK'
  exact this

theorem det_externalProdFFT {K : Set Loc} {out : ℕ → FLoc} {gsw : ℕ → ℕ → ℕ → ℕ} {q : ℕ} (hE : 0 < E.br.level)
    (hu : User K) (hd : ∀ t, t < E.k + 1 → RdD E K q t) (ho : WrF E K out) :
    Det K (externalProdFFTGLWETo O E out E.br gsw (.accDcmp q)) fun _ K' => RdF E K' out := by
  refine (det_fftPolyMul (hu.rdF _) (hd 0 (by omega) 0 hE) ho).bind fun _ K1 h1 hr => ?_
  refine (Det.forUp_any fun j K' hK _ hj => ?_).bind fun _ K2 h2 _ => ?_
  · exact det_fftPolyMulAdd ((hu.mono (h1.trans hK)).rdF _) (hK (h1 (hd 0 (by omega) j hj))) (hr.mono hK)
  refine Det.mono (Det.forUp_any fun i K' hK _ hi => Det.forUp_any fun j K'' hK' _ hj => ?_)
    fun _ K' hK _ => hr.mono (h2.trans hK)
  exact det_fftPolyMulAdd ((hu.mono (h1.trans (h2.trans (hK.trans hK')))).rdF _)
    (hK' (hK (h2 (h1 (hd i hi j hj))))) (hr.mono (h2.trans (hK.trans hK')))

/-! ### Without extension -/

/-- Every polynomial of the output exists, has the right length and is agreed on. -/
def OutOk (E : Ev w) (K : Set Loc) (out : List Vec) : Prop :=
  ∀ j, j < E.k + 1 → ∀ v, out[j]? = some v → Rd K v

theorem OutOk.mono {K K' : Set Loc} (h : K ⊆ K') {out : List Vec} (hv : OutOk E K out) : OutOk E K' out :=
  fun j hj v e => (hv j hj v e).mono h

theorem det_init {K : Set Loc} {out lut : List Vec} {ct : Vec} (hc : Rd K ct) (hl : ∀ v ∈ lut, Rd K v)
    (ho : ∀ v ∈ out, Wr K v) :
    Det K (rotInit O E out ct lut) fun _ K' =>
      (∀ v, out[0]? = some v → v.len = E.N) ∧ OutOk E K' out := by
  refine det_elem.bind fun o K1 h1 eo => det_elem.bind fun l K2 h2 el => ?_
  have hK2 := h1.trans h2
  refine (det_rd fun hi => hK2 (hc 0 hi)).bind fun x K3 h3 _ => ?_
  refine (det_monomialMulPolyTo ((hl l (List.mem_of_getElem? el)).mono (hK2.trans h3))
    ((ho o (List.mem_of_getElem? eo)).mono (hK2.trans h3))).bind fun _ K4 h4 ⟨hlen, hr⟩ => ?_
  refine (Det.forUp_all (fun i K' => ∀ v, out[i]? = some v → Rd K' v) (fun i _ _ h h' v e => (h' v e).mono h)
    fun i K' hK _ _ _ => ?_).mono fun _ K' hK h => ⟨fun v e => ?_, fun j hj v e => ?_⟩
  · refine det_elem.bind fun v L1 l1 ev => (det_clear ((ho v (List.mem_of_getElem? ev)).mono
      (hK2.trans (h3.trans (h4.trans (hK.trans l1)))))).mono fun _ K' _ h v' e => ?_
    rw [ev] at e; cases e; exact h
  · rw [eo] at e; cases e; exact hlen
  · rcases Nat.eq_zero_or_pos j with rfl | hj0
    · rw [eo] at e; cases e; exact hr.mono hK
    · exact h j hj0 hj v e

/-- The loop that adds the accumulator to the output. -/
theorem det_accOut {K : Set Loc} {out : List Vec} (ho : OutOk E K out) (ha : RdF E K (.fftAcc 0)) :
    Det K (accOut O E out) fun _ K' =>
      OutOk E K' out ∧ ∀ j, j < E.k + 1 → ∀ v, out[j]? = some v → v.len = E.N := by
  refine (Det.forUp_all (fun i _ => ∀ v, out[i]? = some v → v.len = E.N) (fun i _ _ _ h' => h')
    fun i K' hK _ hi _ => ?_).mono fun _ K' hK h => ⟨ho.mono hK, fun j hj => h j (Nat.zero_le _) hj⟩
  refine det_elem.bind fun o L1 l1 eo => ?_
  refine (det_invFFTAddToUnsafe (l1 (hK (ha i hi))) ((ho i hi o eo).mono (hK.trans l1))).mono fun _ _ _ h v e => ?_
  rw [eo] at e; cases e; exact h

/-- The loop that decomposes the output. -/
theorem det_dcmpOut {K : Set Loc} {out : List Vec} (hb : Bufs E K) (ho : OutOk E K out)
    (hlen : ∀ j, j < E.k + 1 → ∀ v, out[j]? = some v → v.len = E.N) :
    Det K (dcmpOut O E (polys E.N E.br.level) out)
      fun _ K' => ∀ t, t < E.k + 1 → RdD E K' 0 t := by
  refine (Det.forUp_all (fun t K' => RdD E K' 0 t) (fun i _ _ h h' => h'.mono h)
    fun i K' hK _ hi _ => ?_).mono fun _ K' hK h t ht => h t (Nat.zero_le _) ht
  refine det_elem.bind fun o L1 l1 eo => ?_
  exact det_dcmpAcc (hb.mono (hK.trans l1)) ((ho i hi o eo).mono (hK.trans l1)) (hlen i hi o eo).ge

/-- The output list has all its polynomials. -/
def OutLen (E : Ev w) (out : List Vec) : Prop := ∀ j, j < E.k + 1 → ∀ v, out[j]? = some v → v.len = E.N

theorem det_blindRotateOriginalTo {K : Set Loc} {out lut : List Vec} {ct : Vec} (hE : 0 < E.br.level) (hu : User K)
    (hb : Bufs E K) (hc : Rd K ct) (hl : ∀ v ∈ lut, Rd K v) (ho : ∀ v ∈ out, Wr K v) :
    Det K (blindRotateOriginalTo O E out ct lut) fun _ K' => OutOk E K' out ∧ OutLen E out := by
  refine (det_slicePoly hb.p).bind fun d K1 h1 e => ?_
  subst e
  refine (det_init (hc.mono h1) (fun v hv => (hl v hv).mono h1) fun v hv => (ho v hv).mono h1).bind
    fun _ K2 h2 ⟨hlen, hok⟩ => ?_
  refine det_elem.bind fun o K3 h3 eo => ?_
  have hK3 := h1.trans (h2.trans h3)
  refine (det_dcmpAcc (hb.mono hK3) ((hok 0 (by omega) o eo).mono h3) (hlen o eo).ge).bind fun _ K4 h4 hd => ?_
  refine (det_gadgetProdFFT hE (hu.mono (hK3.trans h4)) hd okF_scratch_blk).bind fun _ K5 h5 hblk => ?_
  have hK5 := hK3.trans (h4.trans h5)
  refine (det_rd fun hi => hK5 (hc 1 hi)).bind fun x K6 h6 _ => ?_
  refine (det_wrF (.inr trivial)).bind fun _ K7 h7 hm => ?_
  refine (det_fftPolyMul (hblk.mono (h6.trans h7)) hm okF_scratch_acc).bind fun _ K8 h8 hacc => ?_
  have hK8 := hK5.trans (h6.trans (h7.trans h8))
  refine (det_accOut (hok.mono (h3.trans (h4.trans (h5.trans (h6.trans (h7.trans h8)))))) hacc).bind
    fun _ K9 h9 ⟨hok9, hlen9⟩ => ?_
  have hK9 := hK8.trans h9
  refine Det.mono (Det.forUp_any fun i K' hK _ _ => ?_) fun _ K' hK _ => ⟨hok9.mono hK, hlen9⟩
  refine (det_dcmpOut (hb.mono (hK9.trans hK)) (hok9.mono hK) hlen9).bind fun _ L1 l1 hd => ?_
  have hL1 := hK9.trans (hK.trans l1)
  refine (det_externalProdFFT hE (hu.mono hL1) hd okF_scratch_blk).bind fun _ L2 l2 hblk => ?_
  refine (det_rd fun hi => l2 (hL1 (hc (i + 1) hi))).bind fun x L3 l3 _ => ?_
  refine (det_wrF (.inr trivial)).bind fun _ L4 l4 hm => ?_
  refine (det_fftPolyMul (hblk.mono (l3.trans l4)) hm okF_scratch_acc).bind fun _ L5 l5 hacc => ?_
  exact (det_accOut (hok9.mono (hK.trans (l1.trans (l2.trans (l3.trans (l4.trans l5)))))) hacc).any

theorem det_blindRotateBlockTo {K : Set Loc} {out lut : List Vec} {ct : Vec} (hE : 0 < E.br.level) (hu : User K)
    (hb : Bufs E K) (hc : Rd K ct) (hl : ∀ v ∈ lut, Rd K v) (ho : ∀ v ∈ out, Wr K v) :
    Det K (blindRotateBlockTo O E out ct lut) fun _ K' => OutOk E K' out ∧ OutLen E out := by
  refine (det_slicePoly hb.p).bind fun d K1 h1 e => ?_
  subst e
  refine (det_init (hc.mono h1) (fun v hv => (hl v hv).mono h1) fun v hv => (ho v hv).mono h1).bind
    fun _ K2 h2 ⟨hlen, hok⟩ => ?_
  refine det_elem.bind fun o K3 h3 eo => ?_
  have hK3 := h1.trans (h2.trans h3)
  refine (det_dcmpAcc (hb.mono hK3) ((hok 0 (by omega) o eo).mono h3) (hlen o eo).ge).bind fun _ K4 h4 hd => ?_
  refine (det_gadgetProdFFT hE (hu.mono (hK3.trans h4)) hd okF_scratch_blk).bind fun _ K5 h5 hblk => ?_
  have hK5 := hK3.trans (h4.trans h5)
  refine (det_rd fun hi => hK5 (hc 1 hi)).bind fun x K6 h6 _ => ?_
  refine (det_wrF (.inr trivial)).bind fun _ K7 h7 hm => ?_
  refine (det_fftPolyMul (hblk.mono (h6.trans h7)) hm okF_scratch_acc).bind fun _ K8 h8 hacc => ?_
  have hK8 := hK5.trans (h6.trans (h7.trans h8))
  refine (Det.forUp_any fun j K' hK _ _ => ?_).bind fun _ K8' h8' _ => ?_
  · have hK' := hK8.trans hK
    refine (det_gadgetProdFFT hE (hu.mono hK') (hd.mono (h5.trans (h6.trans (h7.trans (h8.trans hK)))))
      okF_scratch_blk).bind fun _ L1 l1 hblk => ?_
    refine (det_rd fun hi => l1 (hK' (hc (j + 1) hi))).bind fun x L2 l2 _ => ?_
    refine (det_wrF (.inr trivial)).bind fun _ L3 l3 hm => ?_
    exact det_fftPolyMulAdd (hblk.mono (l2.trans l3)) hm (hacc.mono (hK.trans (l1.trans (l2.trans l3))))
  refine (det_accOut (hok.mono (h3.trans (h4.trans (h5.trans (h6.trans (h7.trans (h8.trans h8'))))))) (hacc.mono h8')).bind
    fun _ K9 h9 ⟨hok9, hlen9⟩ => ?_
  have hK9 := hK8.trans (h8'.trans h9)
  refine Det.mono (Det.forUp_any fun i K' hK _ _ => ?_) fun _ K' hK _ => ⟨hok9.mono hK, hlen9⟩
  refine (det_dcmpOut (hb.mono (hK9.trans hK)) (hok9.mono hK) hlen9).bind fun _ L1 l1 hd => ?_
  have hL1 := hK9.trans (hK.trans l1)
  refine (det_externalProdFFT hE (hu.mono hL1) hd okF_scratch_blk).bind fun _ L2 l2 hblk => ?_
  refine (det_rd fun hi => l2 (hL1 (hc _ hi))).bind fun x L3 l3 _ => ?_
  refine (det_wrF (.inr trivial)).bind fun _ L4 l4 hm => ?_
  refine (det_fftPolyMul (hblk.mono (l3.trans l4)) hm okF_scratch_acc).bind fun _ L5 l5 hacc => ?_
  have hL5 := hL1.trans (l2.trans (l3.trans (l4.trans l5)))
  refine (Det.forUp_any fun j K' hK' _ _ => ?_).bind fun _ L6 l6 _ => ?_
  · refine (det_externalProdFFT hE (hu.mono (hL5.trans hK'))
      (fun t ht => (hd t ht).mono (l2.trans (l3.trans (l4.trans (l5.trans hK'))))) okF_scratch_blk).bind
      fun _ M1 m1 hblk => ?_
    refine (det_rd fun hi => m1 (hK' (hL5 (hc _ hi)))).bind fun x M2 m2 _ => ?_
    refine (det_wrF (.inr trivial)).bind fun _ M3 m3 hm => ?_
    exact det_fftPolyMulAdd (hblk.mono (m2.trans m3)) hm (hacc.mono (hK'.trans (m1.trans (m2.trans m3))))
  exact (det_accOut (hok9.mono (hK.trans (l1.trans (l2.trans (l3.trans (l4.trans (l5.trans l6)))))))
    (hacc.mono l6)).any

/-! ### With extension -/

/-- All the accumulators of one kind. -/
def RdQ (E : Ev w) (K : Set Loc) (ct : ℕ → ℕ → FLoc) : Prop := ∀ q, q < E.f → RdF E K (ct q)

theorem RdQ.mono {K K' : Set Loc} (h : K ⊆ K') {v : ℕ → ℕ → FLoc} (hv : RdQ E K v) : RdQ E K' v :=
  fun q hq => (hv q hq).mono h

theorem det_extRotSet {K : Set Loc} {a : ℕ} (hf : 0 < E.f) (hb : RdQ E K .blkAcc) :
    Det K (extRotSet O E a) fun _ K' => RdQ E K' .fftAcc := by
  unfold extRotSet
  have hidx : a % E.f < E.f := Nat.mod_lt _ hf
  dsimp only
  generalize a % E.f = idx at hidx
  split
  · refine (det_wrF (.inr trivial)).bind fun _ K1 h1 hm => ?_
    refine (Det.forUp_all (fun q K' => RdF E K' (.fftAcc q)) (fun i _ _ h h' => h'.mono h)
      fun q K' hK _ hq _ => ?_).mono fun _ K' _ h q hq => h q (Nat.zero_le _) hq
    exact det_fftPolyMul ((hb q hq).mono (h1.trans hK)) (hK hm) okF_scratch_acc
  · refine (det_wrF (.inr trivial)).bind fun _ K1 h1 hm => ?_
    refine (Det.forUp_all (fun q K' => RdF E K' (.fftAcc q)) (fun i _ _ h h' => h'.mono h)
      fun q K' hK _ hq _ => ?_).bind fun _ K2 h2 hacc => ?_
    · refine (det_fftPolyMul ((hb (E.f - idx + q) (by omega)).mono (h1.trans hK)) (hK hm) okF_scratch_acc).bind
        fun _ L1 l1 hq' => ?_
      exact det_subFFTGLWETo hq' ((hb q (by omega)).mono (h1.trans (hK.trans l1))) okF_scratch_acc
    refine (det_wrF (.inr trivial)).bind fun _ K3 h3 hm => ?_
    refine (Det.forUp_all (fun q K' => RdF E K' (.fftAcc q)) (fun i _ _ h h' => h'.mono h)
      fun q K' hK _ hq _ => ?_).mono fun _ K4 h4 hacc' q hq => ?_
    · refine (det_fftPolyMul ((hb (q - idx) (by omega)).mono (h1.trans (h2.trans (h3.trans hK)))) (hK hm)
        okF_scratch_acc).bind fun _ L1 l1 hq' => ?_
      exact det_subFFTGLWETo hq' ((hb q (by omega)).mono (h1.trans (h2.trans (h3.trans (hK.trans l1))))) okF_scratch_acc
    · rcases Nat.lt_or_ge q idx with h | h
      · exact (hacc q (Nat.zero_le _) h).mono (h3.trans h4)
      · exact hacc' q h hq

theorem det_extRotAdd {K : Set Loc} {a : ℕ} (hf : 0 < E.f) (hb : RdQ E K .blkAcc) (ha : RdQ E K .fftAcc) :
    Det K (extRotAdd O E a) Any := by
  unfold extRotAdd
  have hidx : a % E.f < E.f := Nat.mod_lt _ hf
  dsimp only
  generalize a % E.f = idx at hidx
  split
  · refine (det_wrF (.inr trivial)).bind fun _ K1 h1 hm => ?_
    exact Det.forUp_any fun q K' hK _ hq =>
      det_fftPolyMulAdd ((hb q hq).mono (h1.trans hK)) (hK hm) ((ha q hq).mono (h1.trans hK))
  · refine (det_wrF (.inr trivial)).bind fun _ K1 h1 hm => ?_
    refine (Det.forUp_any fun q K' hK _ hq => ?_).bind fun _ K2 h2 _ => ?_
    · refine (det_fftPolyMulAdd ((hb (E.f - idx + q) (by omega)).mono (h1.trans hK)) (hK hm)
        ((ha q (by omega)).mono (h1.trans hK))).bind fun _ L1 l1 _ => ?_
      exact (det_subFFTGLWETo ((ha q (by omega)).mono (h1.trans (hK.trans l1)))
        ((hb q (by omega)).mono (h1.trans (hK.trans l1))) okF_scratch_acc).any
    refine (det_wrF (.inr trivial)).bind fun _ K3 h3 hm => ?_
    refine Det.forUp_any fun q K' hK _ hq => ?_
    have hK' := h1.trans (h2.trans (h3.trans hK))
    refine (det_fftPolyMulAdd ((hb (q - idx) (by omega)).mono hK') (hK hm)
      ((ha q hq).mono hK')).bind fun _ L1 l1 _ => ?_
    exact (det_subFFTGLWETo ((ha q (by omega)).mono (hK'.trans l1))
      ((hb q (by omega)).mono (hK'.trans l1)) okF_scratch_acc).any

/-- All accumulators. -/
def RdA (E : Ev w) (K : Set Loc) : Prop := ∀ q, q < E.f → ∀ t, t < E.k + 1 → Rd K (accPoly E q t)

theorem RdA.mono {K K' : Set Loc} (h : K ⊆ K') (hv : RdA E K) : RdA E K' := fun q hq t ht => (hv q hq t ht).mono h

theorem det_extInv {K : Set Loc} (hA : RdA E K) (ha : RdQ E K .fftAcc) : Det K (extInv O E) Any :=
  Det.forUp_any fun q _ hK _ hq => Det.forUp_any fun t _ hK' _ ht =>
    (det_invFFTAddToUnsafe (hK' (hK (ha q hq t ht))) ((hA q hq t ht).mono (hK.trans hK'))).any

theorem det_extDcmp {K : Set Loc} (hb : Bufs E K) (hA : RdA E K) :
    Det K (extDcmp O E (polys E.N E.br.level)) fun _ K' => ∀ q, q < E.f → ∀ t, t < E.k + 1 → RdD E K' q t := by
  refine (Det.forUp_all (fun q K' => ∀ t, t < E.k + 1 → RdD E K' q t) (fun i _ _ h h' t ht => (h' t ht).mono h)
    fun q K' hK _ hq _ => ?_).mono fun _ K' _ h q hq => h q (Nat.zero_le _) hq
  refine (Det.forUp_all (fun t K' => RdD E K' q t) (fun i _ _ h h' => h'.mono h)
    fun t K'' hK' _ ht _ => ?_).mono fun _ K' _ h t ht => h t (Nat.zero_le _) ht
  exact det_dcmpAcc (hb.mono (hK.trans hK')) ((hA q hq t ht).mono (hK.trans hK')) le_rfl

theorem det_extLast {K : Set Loc} {first : Bool} {j a : ℕ} (hE : 0 < E.br.level) (hf : 0 < E.f) (hu : User K)
    (hd : ∀ q, q < E.f → ∀ t, t < E.k + 1 → RdD E K q t) (ha : first = false → RdF E K (.fftAcc 0)) :
    Det K (extLast O E first j a) fun _ K' => RdF E K' (.fftAcc 0) := by
  unfold extLast
  have hidx : a % E.f < E.f := Nat.mod_lt _ hf
  dsimp only
  generalize a % E.f = idx at hidx
  split
  · refine (det_externalProdFFT hE hu (hd 0 hf) okF_scratch_blk).bind fun _ K1 h1 hb => ?_
    refine (det_wrF (.inr trivial)).bind fun _ K2 h2 hm => ?_
    cases first
    · exact (det_fftPolyMulAdd (hb.mono h2) hm ((ha rfl).mono (h1.trans h2))).mono
        fun _ _ hK _ => (ha rfl).mono (h1.trans (h2.trans hK))
    · exact det_fftPolyMul (hb.mono h2) hm okF_scratch_acc
  · refine (det_externalProdFFT hE hu (hd 0 hf) okF_scratch_blk).bind fun _ K1 h1 hb => ?_
    refine (det_externalProdFFT hE (hu.mono h1) (fun t ht => (hd (E.f - idx) (by omega) t ht).mono h1)
      okF_scratch_blk).bind fun _ K2 h2 hb' => ?_
    refine (det_wrF (.inr trivial)).bind fun _ K3 h3 hm => ?_
    cases first
    · have ha' := (ha rfl).mono (h1.trans (h2.trans h3))
      refine (det_fftPolyMulAdd (hb'.mono h3) hm ha').bind fun _ K4 h4 _ => ?_
      exact det_subFFTGLWETo (ha'.mono h4) (hb.mono (h2.trans (h3.trans h4))) okF_scratch_acc
    · refine (det_fftPolyMul (hb'.mono h3) hm okF_scratch_acc).bind fun _ K4 h4 hr => ?_
      exact det_subFFTGLWETo hr (hb.mono (h2.trans (h3.trans h4))) okF_scratch_acc

theorem okA {K : Set Loc} {q t : ℕ} : Wr K (accPoly E q t) := fun _ _ => .inr trivial

theorem det_blindRotateExtendedTo {K : Set Loc} {out lut : List Vec} {ct : Vec} (hE : 0 < E.br.level) (hf : 0 < E.f)
    (hu : User K) (hb : Bufs E K) (hc : Rd K ct) (hl : ∀ v ∈ lut, Rd K v) (ho : ∀ v ∈ out, Wr K v) 
    (hlen : ∀ v ∈ out, v.len ≤ E.N ∨ Rd K v) :
    Det K (blindRotateExtendedTo O E out ct lut) fun _ K' => OutOk E K' out := by
  refine (det_slicePoly hb.p).bind fun d K1 h1 e => ?_
  subst e
  refine (det_rd fun hi => h1 (hc 0 hi)).bind fun x K2 h2 _ => ?_
  have hidx : a2N E x % E.f < E.f := Nat.mod_lt _ hf
  dsimp only
  generalize a2N E x % E.f = idx at hidx
  generalize a2N E x / E.f = mono
  have hK2 := h1.trans h2
  refine (Det.forUp_all (fun i K' => Rd K' (accPoly E (E.f - idx + i) 0)) (fun i _ _ h h' => h'.mono h)
    fun i K' hK _ hi _ => ?_).bind fun _ K3 h3 hA1 => ?_
  · refine det_elem.bind fun v L1 l1 ev => (det_monomialMulPolyTo ((hl v (List.mem_of_getElem? ev)).mono
      (hK2.trans (hK.trans l1))) okA).mono fun _ _ _ h => h.2
  have hK3 := hK2.trans h3
  refine (Det.forUp_all (fun i K' => Rd K' (accPoly E (i - idx) 0)) (fun i _ _ h h' => h'.mono h)
    fun i K' hK _ hi _ => ?_).bind fun _ K4 h4 hA2 => ?_
  · refine det_elem.bind fun v L1 l1 ev => (det_monomialMulPolyTo ((hl v (List.mem_of_getElem? ev)).mono
      (hK3.trans (hK.trans l1))) okA).mono fun _ _ _ h => h.2
  have hA0 : ∀ q, q < E.f → Rd K4 (accPoly E q 0) := by
    intro q hq
    rcases Nat.lt_or_ge q (E.f - idx) with h | h
    · have := hA2 (q + idx) (by omega) (by omega)
      rwa [Nat.add_sub_cancel] at this
    · have := hA1 (q - (E.f - idx)) (Nat.zero_le _) (by omega)
      rw [show E.f - idx + (q - (E.f - idx)) = q by omega] at this
      exact this.mono h4
  refine (Det.forUp_all (fun q K' => ∀ t, 1 ≤ t → t < E.k + 1 → Rd K' (accPoly E q t))
    (fun i _ _ h h' t h1 h2 => (h' t h1 h2).mono h) fun q K' hK _ hi _ => ?_).bind fun _ K5 h5 hA3 => ?_
  · exact Det.forUp_all (fun t K' => Rd K' (accPoly E q t)) (fun i _ _ h h' => h'.mono h)
      fun t K'' hK' _ ht _ => det_clear okA
  have hA : RdA E K5 := by
    intro q hq t ht
    rcases Nat.eq_zero_or_pos t with rfl | h
    · exact (hA0 q hq).mono h5
    · exact hA3 q (Nat.zero_le _) hq t h ht
  have hK5 := hK3.trans (h4.trans h5)
  refine (Det.forUp_all (fun q K' => RdD E K' q 0) (fun i _ _ h h' => h'.mono h)
    fun q K' hK _ hq _ => ?_).bind fun _ K6 h6 hD => ?_
  · exact det_dcmpAcc (hb.mono (hK5.trans hK)) ((hA q hq 0 (by omega)).mono hK) le_rfl
  have hK6 := hK5.trans h6
  refine (det_rd fun hi => hK6 (hc 1 hi)).bind fun x K7 h7 _ => ?_
  refine (Det.forUp_all (fun q K' => RdF E K' (.blkAcc q)) (fun i _ _ h h' => h'.mono h)
    fun q K' hK _ hq _ => ?_).bind fun _ K8 h8 hB => ?_
  · exact det_gadgetProdFFT hE (hu.mono (hK6.trans (h7.trans hK))) ((hD q (Nat.zero_le _) hq).mono (h7.trans hK))
      okF_scratch_blk
  refine (det_extRotSet hf fun q hq => hB q (Nat.zero_le _) hq).bind fun _ K9 h9 hAcc => ?_
  have hK9 := hK6.trans (h7.trans (h8.trans h9))
  refine (Det.forUp_any fun j K' hK _ _ => ?_).bind fun _ K10 h10 _ => ?_
  · refine (det_rd fun hi => hK (hK9 (hc _ hi))).bind fun x L1 l1 _ => ?_
    refine (Det.forUp_all (fun q K' => RdF E K' (.blkAcc q)) (fun i _ _ h h' => h'.mono h)
      fun q K' hK' _ hq _ => ?_).bind fun _ L2 l2 hB => ?_
    · exact det_gadgetProdFFT hE (hu.mono (hK9.trans (hK.trans (l1.trans hK'))))
        ((hD q (Nat.zero_le _) hq).mono (h7.trans (h8.trans (h9.trans (hK.trans (l1.trans hK')))))) okF_scratch_blk
    exact det_extRotAdd hf (fun q hq => hB q (Nat.zero_le _) hq) (hAcc.mono (hK.trans (l1.trans l2)))
  have hA10 := hA.mono (h6.trans (h7.trans (h8.trans (h9.trans h10))))
  have hK10 := hK9.trans h10
  refine (det_extInv hA10 (hAcc.mono h10)).bind fun _ K11 h11 _ => ?_
  have hK11 := hK10.trans h11
  have hA11 := hA10.mono h11
  refine (Det.forUp_any fun i K' hK _ _ => ?_).bind fun _ K12 h12 _ => ?_
  · refine (det_extDcmp (hb.mono (hK11.trans hK)) (hA11.mono hK)).bind fun _ L1 l1 hD => ?_
    have hL1 := hK11.trans (hK.trans l1)
    refine (det_rd fun hi => hL1 (hc _ hi)).bind fun x L2 l2 _ => ?_
    refine (Det.forUp_all (fun q K' => RdF E K' (.blkAcc q)) (fun i _ _ h h' => h'.mono h)
      fun q K' hK' _ hq _ => ?_).bind fun _ L3 l3 hB => ?_
    · exact det_externalProdFFT hE (hu.mono (hL1.trans (l2.trans hK')))
        (fun t ht => (hD q hq t ht).mono (l2.trans hK')) okF_scratch_blk
    refine (det_extRotSet hf fun q hq => hB q (Nat.zero_le _) hq).bind fun _ L4 l4 hAcc => ?_
    have hL4 := hL1.trans (l2.trans (l3.trans l4))
    refine (Det.forUp_any fun j K'' hK'' _ _ => ?_).bind fun _ L5 l5 _ => ?_
    · refine (det_rd fun hi => hK'' (hL4 (hc _ hi))).bind fun x M1 m1 _ => ?_
      refine (Det.forUp_all (fun q K' => RdF E K' (.blkAcc q)) (fun i _ _ h h' => h'.mono h)
        fun q K' hK' _ hq _ => ?_).bind fun _ M2 m2 hB => ?_
      · exact det_externalProdFFT hE (hu.mono (hL4.trans (hK''.trans (m1.trans hK'))))
          (fun t ht => (hD q hq t ht).mono (l2.trans (l3.trans (l4.trans (hK''.trans (m1.trans hK')))))) okF_scratch_blk
      exact det_extRotAdd hf (fun q hq => hB q (Nat.zero_le _) hq) (hAcc.mono (hK''.trans (m1.trans m2)))
    exact det_extInv (hA11.mono (hK.trans (l1.trans (l2.trans (l3.trans (l4.trans l5)))))) (hAcc.mono l5)
  have hK12 := hK11.trans h12
  have hA12 := hA11.mono h12
  refine (det_extDcmp (hb.mono hK12) hA12).bind fun _ K13 h13 hD => ?_
  have hK13 := hK12.trans h13
  refine (det_rd fun hi => hK13 (hc _ hi)).bind fun x K14 h14 _ => ?_
  refine (det_extLast hE hf (hu.mono (hK13.trans h14)) (fun q hq t ht => (hD q hq t ht).mono h14)
    (fun h => by cases h)).bind fun _ K15 h15 hL => ?_
  have hK15 := hK13.trans (h14.trans h15)
  refine (Det.forUp_any fun j K' hK _ _ => ?_).bind fun _ K16 h16 _ => ?_
  · refine (det_rd fun hi => hK (hK15 (hc _ hi))).bind fun x L1 l1 _ => ?_
    exact (det_extLast hE hf (hu.mono (hK15.trans (hK.trans l1)))
      (fun q hq t ht => (hD q hq t ht).mono (h14.trans (h15.trans (hK.trans l1))))
      (fun _ => hL.mono (hK.trans l1))).any
  have hK16 := hK15.trans h16
  have hA16 := hA12.mono (h13.trans (h14.trans (h15.trans h16)))
  refine (Det.forUp_all (fun t K' => ∀ v, out[t]? = some v → Rd K' v) (fun i _ _ h h' v e => (h' v e).mono h)
    fun t K' hK _ ht _ => ?_).mono fun _ K' _ h j hj v e => h j (Nat.zero_le _) hj v e
  refine (det_invFFTAddToUnsafe (hK (h16 (hL t ht))) ((hA16 0 hf t ht).mono hK)).bind fun _ L1 l1 _ => ?_
  refine det_elem.bind fun o L2 l2 eo => ?_
  have hm := List.mem_of_getElem? eo
  have hL2 := hK16.trans (hK.trans (l1.trans l2))
  refine (det_copyTo ((hA16 0 hf t ht).mono (hK.trans (l1.trans l2))) ((ho o hm).mono hL2)).mono
    fun _ K' hK' h v e => ?_
  rw [eo] at e; cases e
  rcases hlen o hm with hle | hr
  · exact fun i hi => h i (by simp only [accPoly]; omega)
  · exact hr.mono (hL2.trans hK')

theorem det_blindRotateTo {K : Set Loc} {out lut : List Vec} {ct : Vec} (hE : 0 < E.br.level)
    (hu : User K) (hb : Bufs E K) (hc : Rd K ct) (hl : ∀ v ∈ lut, Rd K v) (ho : ∀ v ∈ out, Wr K v)
    (hlen : ∀ v ∈ out, v.len ≤ E.N ∨ Rd K v) :
    Det K (blindRotateTo O E out ct lut) fun _ K' => OutOk E K' out := by
  unfold blindRotateTo
  split
  · exact det_blindRotateExtendedTo hE (by omega) hu hb hc hl ho hlen
  split
  · exact (det_blindRotateBlockTo hE hu hb hc hl ho).mono fun _ _ _ h => h.1
  · exact (det_blindRotateOriginalTo hE hu hb hc hl ho).mono fun _ _ _ h => h.1

/-! ### Key switching, extraction and tables -/

theorem det_defaultKeySwitchTo {K : Set Loc} {out ct : Vec} (hu : User K) (hb : Bufs E K) (hc : Rd K ct)
    (ho : Wr K out) (hlen : out.len ≤ E.n + 1 ∨ Rd K out) :
    Det K (defaultKeySwitchTo E out ct : M w F Unit) fun _ K' => Rd K' out := by
  refine (det_sliceScalar hb.c).bind fun c K1 h1 e => ?_
  subst e
  refine det_check.bind fun _ K2 h2 hck => ?_
  have hck : E.n + 1 ≤ ct.len := by simpa using hck
  have hK2 := h1.trans h2
  refine (det_copyTo (src := ⟨ct.cell, E.n + 1⟩) (fun i hi => hK2 (hc i (lt_of_lt_of_le hi hck))) (ho.mono hK2)).bind fun _ K3 h3 hcp => ?_
  have hK3 := hK2.trans h3
  have hr : Rd K3 out := by
    rcases hlen with h | h
    · exact fun i hi => hcp i (by simp only; omega)
    · exact h.mono hK3
  refine Det.mono (Det.forUp_any fun i K' hK _ _ => ?_) fun _ K' hK _ => hr.mono hK
  refine (det_rd fun hi => hK (hK3 (hc _ hi))).bind fun x L1 l1 _ => ?_
  have hL1 := hK3.trans (hK.trans l1)
  refine (det_decomposeScalarTo fun i hi => ok_cDcmp (hL1 hb.c) hi).bind fun _ L2 l2 hd => ?_
  refine Det.forUp_any fun j K'' hK' _ hj => ?_
  refine (det_rd fun _ => hK' (hd j (by omega))).bind fun d L3 l3 _ => ?_
  exact det_scalarMulAddTo ((hu.mono (hL1.trans (l2.trans (hK'.trans l3)))).rd _)
    (hr.mono (hK.trans (l1.trans (l2.trans (hK'.trans l3)))))

theorem det_extractTo {K : Set Loc} {ct : List Vec} {out : Vec} (hc : ∀ v ∈ ct, Rd K v ∧ v.len = E.N)
    (hct : ct.length = E.k + 1) (ho : Wr K out) :
    Det K (extractTo ct out : M w F Unit) fun _ K' => ∀ i, i < E.k * E.N + 1 → .w (out.cell i) ∈ K' := by
  refine det_elem.bind fun v K1 h1 ev => ?_
  have hv := (hc v (List.mem_of_getElem? ev)).1
  refine (det_rd fun hi => h1 (hv 0 hi)).bind fun x K2 h2 _ => ?_
  refine (det_wr fun hi => ok_mono (h1.trans h2) (ho 0 hi)).bind fun _ K3 h3 h0 => ?_
  have hK3 := h1.trans (h2.trans h3)
  refine (Det.forUp_all (fun i K' => ∀ j, j < E.N → .w (out.cell (1 + i * E.N + j)) ∈ K')
    (fun i _ _ h h' j hj => h (h' j hj)) fun i K' hK _ hi _ => ?_).mono fun _ K' hK' h i hi => ?_
  · refine det_elem.bind fun p L1 l1 ep => ?_
    obtain ⟨hp, hpl⟩ := hc p (List.mem_of_getElem? ep)
    have hL1 := hK3.trans (hK.trans l1)
    refine (det_rd fun hi => hL1 (hp 0 hi)).bind fun x L2 l2 _ => ?_
    refine (det_wr fun hi => ok_mono (hL1.trans l2) (ho _ hi)).bind fun _ L3 l3 hw => ?_
    refine (Det.forUp_all (fun j K' => .w (out.cell (1 + i * p.len + j)) ∈ K') (fun i _ _ h h' => h h')
      fun j K'' hK'' _ hj _ => ?_).mono fun _ K'' hK'' h j hj => ?_
    · have hL3 := hL1.trans (l2.trans (l3.trans hK''))
      refine (det_rd fun hi => hL3 (hp _ hi)).bind fun x L4 l4 _ => ?_
      exact (det_wr fun hi => ok_mono (hL3.trans l4) (ho _ hi)).mono fun _ _ _ h => h.2
    · rw [hpl] at h hw
      rcases Nat.eq_zero_or_pos j with rfl | hj0
      · exact hK'' hw.2
      · exact h j hj0 hj
  · rcases Nat.eq_zero_or_pos i with rfl | hi0
    · exact hK' h0.2
    · have hN : 0 < E.N := by
        rcases Nat.eq_zero_or_pos E.N with h | h
        · rw [h] at hi; omega
        · exact h
      have h1 : (i - 1) / E.N < E.k := Nat.div_lt_of_lt_mul (by rw [Nat.mul_comm]; omega)
      have := h ((i - 1) / E.N) (Nat.zero_le _) (by omega) ((i - 1) % E.N) (Nat.mod_lt _ hN)
      have e : 1 + (i - 1) / E.N * E.N + (i - 1) % E.N = i := by
        have := Nat.div_add_mod (i - 1) E.N
        rw [Nat.mul_comm] at this; omega
      rwa [e] at this

theorem ctRotate_get {j : ℕ} (hj : j < E.k + 1) : (ctRotate E)[j]? = some ⟨.rotate j, E.N⟩ := by
  unfold ctRotate
  rw [List.getElem?_map, List.getElem?_range hj]; rfl

theorem det_bootstrapLUTTo {K : Set Loc} {out ct : Vec} {lut : List Vec} (hE : 0 < E.br.level)
    (hu : User K) (hb : Bufs E K) (hc : Rd K ct) (hl : ∀ v ∈ lut, Rd K v) (ho : Rd K out) :
    Det K (bootstrapLUTTo O E out ct lut) Any := by
  have hrot : ∀ K', ∀ v ∈ ctRotate E, Wr K' v ∧ v.len = E.N := by
    intro K' v hv
    unfold ctRotate at hv
    rw [List.mem_map] at hv
    obtain ⟨t, _, rfl⟩ := hv
    exact ⟨fun _ _ => .inr trivial, rfl⟩
  have hrd : ∀ K', OutOk E K' (ctRotate E) → ∀ v ∈ ctRotate E, Rd K' v ∧ v.len = E.N := by
    intro K' h v hv
    obtain ⟨t, ht⟩ := List.getElem?_of_mem hv
    refine ⟨h t ?_ v ht, (hrot K' v hv).2⟩
    have := (List.getElem?_eq_some_iff.mp ht).1
    simpa [ctRotate] using this
  have hlenR : (ctRotate E).length = E.k + 1 := by simp [ctRotate]
  unfold bootstrapLUTTo
  cases E.order
  · refine (det_defaultKeySwitchTo hu hb hc (fun _ _ => .inr trivial) (.inl le_rfl)).bind fun _ K1 h1 hks => ?_
    refine (det_blindRotateTo hE (hu.mono h1) (hb.mono h1) hks (fun v hv => (hl v hv).mono h1)
      (fun v hv => (hrot _ v hv).1) fun v hv => .inl (hrot K1 v hv).2.le).bind fun _ K2 h2 hok => ?_
    exact (det_extractTo (E := E) (hrd K2 hok) hlenR (ho.mono (h1.trans h2)).wr).any
  · refine (det_blindRotateTo hE hu hb hc hl
      (fun v hv => (hrot _ v hv).1) fun v hv => .inl (hrot K v hv).2.le).bind fun _ K2 h2 hok => ?_
    refine (det_extractTo (E := E) (hrd K2 hok) hlenR fun _ _ => .inr trivial).bind fun _ K3 h3 hex => ?_
    have hK3 := h2.trans h3
    exact (det_defaultKeySwitchTo (hu.mono hK3) (hb.mono hK3) (fun i hi => hex i hi) (ho.mono hK3).wr
      (.inr (ho.mono hK3))).any

/-- The raw table does not depend on what was in the buffer. -/
theorem genLUTRaw_old (L p : ℕ) (fn : ℕ → BitVec w) (hL0 : 0 < L) (hp : 0 < p) (hpw : 2 * p < 2 ^ w)
    (hp2 : p ≤ 2 ^ 52) (hpL : p * L ≤ 2 ^ 51) :
    ∃ xs, ∀ raw : List (BitVec w), raw.length = L → genLUTRaw w L p fn raw = some xs := by
  obtain ⟨xs, e, hxl, hx⟩ := genLUTRaw_spec w L p fn (List.replicate L 0) (by simp) hL0 hp hpw hp2 hpL
  refine ⟨xs, fun raw hr => ?_⟩
  obtain ⟨ys, e', hyl, hy⟩ := genLUTRaw_spec w L p fn raw hr hL0 hp hpw hp2 hpL
  rw [e']
  congr 1
  set O := (L + p) / (2 * p)
  have hOL : O ≤ L := by
    apply Nat.div_le_of_le_mul
    have : p ≤ p * L := Nat.le_mul_of_pos_right p hL0
    have : L ≤ p * L := Nat.le_mul_of_pos_left L hp
    nlinarith
  apply List.ext_getElem?
  intro t
  rcases Nat.lt_or_ge t L with ht | ht
  · rcases Nat.lt_or_ge (t + O) L with h | h
    · obtain ⟨x, hxp, h1, h2⟩ := window_exists L p hp (t + O) h
      have a := (hx x hxp _ h1 h2).2.1 (by omega)
      have b := (hy x hxp _ h1 h2).2.1 (by omega)
      rw [Nat.add_sub_cancel] at a b
      rw [a, b]
    · obtain ⟨x, hxp, h1, h2⟩ := window_exists L p hp (t + O - L) (by omega)
      have a := ((hx x hxp _ h1 h2).2.2 (by omega)).2
      have b := ((hy x hxp _ h1 h2).2.2 (by omega)).2
      rw [show t + O - L + L - O = t by omega] at a b
      rw [a, b]
  · rw [List.getElem?_eq_none (by omega), List.getElem?_eq_none (by omega)]

/-- The bounds of the message modulus under which tables are generated as documented. -/
structure LutOk (w L p : ℕ) : Prop where
  hL : 0 < L
  hp : 0 < p
  hpw : 2 * p < 2 ^ w
  hp2 : p ≤ 2 ^ 52
  hpL : p * L ≤ 2 ^ 51

theorem det_genLUTFullTo {K : Set Loc} {out : List Vec} {p : ℕ} {fn : ℕ → BitVec w} (h : LutOk w (E.f * E.N) p)
    (ho : ∀ v ∈ out, Wr K v) :
    Det K (genLUTFullTo E out p fn : M w F Unit) fun _ K' =>
      ∀ q, q < E.f → ∀ v, out[q]? = some v → ∀ i, i < E.N → .w (v.cell i) ∈ K' := by
  obtain ⟨xs, hxs⟩ := genLUTRaw_old (E.f * E.N) p fn h.hL h.hp h.hpw h.hp2 h.hpL
  suffices hw : Det K (genLUTWrite E out xs : M w F Unit) fun _ K' =>
      ∀ q, q < E.f → ∀ v, out[q]? = some v → ∀ i, i < E.N → .w (v.cell i) ∈ K' by
    refine Det.congr (fun m => ?_) hw
    unfold genLUTFullTo
    rw [run_bind, run_rdAll, Option.bind_some]
    dsimp only
    rw [hxs _ (by simp)]
  refine (Det.forUp_all (fun i K' => .w (.lutRaw i) ∈ K') (fun i _ _ h h' => h h') fun i K' hK _ _ _ => ?_).bind
    fun _ K1 h1 hraw => ?_
  · refine det_elem.bind fun x L1 l1 _ => (det_wr fun _ => .inr trivial).mono fun _ _ _ h => h.2
  refine (Det.forUp_all (fun q K' => ∀ v, out[q]? = some v → ∀ i, i < E.N → .w (v.cell i) ∈ K')
    (fun i _ _ h h' v e i hi => h (h' v e i hi)) fun q K' hK _ hq _ => ?_).mono
    fun _ K' _ h q hq => h q (Nat.zero_le _) hq
  refine (Det.forUp_all (fun i K' => ∀ v, out[q]? = some v → .w (v.cell i) ∈ K')
    (fun i _ _ h h' v e => h (h' v e)) fun i K'' hK' _ hi _ => ?_).mono
    fun _ K' _ h v e i hi => h i (Nat.zero_le _) hi v e
  refine det_elem.bind fun o L1 l1 eo => ?_
  refine (det_rd fun hi => l1 (hK' (hK (hraw _ (Nat.zero_le _) hi)))).bind fun x L2 l2 _ => ?_
  refine (det_wr fun hi => ok_mono (h1.trans (hK.trans (hK'.trans (l1.trans l2))))
    (ho o (List.mem_of_getElem? eo) i hi)).mono fun _ _ _ h v e => ?_
  rw [eo] at e; cases e; exact h.2

theorem det_bootstrapFuncTo {K : Set Loc} {out ct : Vec} {fn : ℕ → BitVec 64} (hE : 0 < E.br.level)
    (hlut : LutOk w (E.f * E.N) E.modulus.toNat)
    (hu : User K) (hb : Bufs E K) (hc : Rd K ct) (ho : Rd K out) :
    Det K (bootstrapFuncTo O E out ct fn) Any := by
  refine (det_genLUTFullTo hlut fun v hv => ?_).bind fun _ K1 h1 hl => ?_
  · unfold lutBuf at hv
    rw [List.mem_map] at hv
    obtain ⟨t, _, rfl⟩ := hv
    exact fun _ _ => .inr trivial
  refine det_bootstrapLUTTo hE (hu.mono h1) (hb.mono h1) (hc.mono h1) (fun v hv => ?_) (ho.mono h1)
  obtain ⟨t, ht⟩ := List.getElem?_of_mem hv
  have hlt : t < E.f := by
    have := (List.getElem?_eq_some_iff.mp ht).1
    simpa [lutBuf] using this
  have := hl t hlt v ht
  have e : v = ⟨.lut t, E.N⟩ := by
    unfold lutBuf at ht
    rw [List.getElem?_map, List.getElem?_range hlt] at ht
    exact (Option.some.inj ht).symm
  subst e
  exact this

end Tfhe.Scratch
