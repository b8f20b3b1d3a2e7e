import Verif.Props.C45
import Verif.Lemma.SplitMul

/-!
# C46: multiplication through limbs is exact modulo `Q`
-/
namespace Tfhe
open Fft Poly

/-- The coefficients as a list, `p.Coeffs`. -/
def Poly.coeffs {N : ℕ} {R : Type} (p : Poly N R) : List R := List.ofFn fun i => p i

theorem zipWith_coeffs {N : ℕ} {R : Type} (f : R → R → R) (p q r : Poly N R) (h : ∀ i, f (p i) (q i) = r i) :
    List.zipWith f p.coeffs q.coeffs = r.coeffs := by
  unfold Poly.coeffs
  apply List.ext_getElem
  · simp
  · intro i h1 h2
    simp only [List.getElem_zipWith, List.getElem_ofFn]
    exact h _

theorem shl_eq_mul {w : ℕ} (x : BitVec w) (n : ℕ) : x <<< n = 2 ^ n * x := by
  apply BitVec.eq_of_toNat_eq
  have h : ((2 : BitVec w) ^ n).toNat = 2 ^ n % 2 ^ w := by
    have : (2 : BitVec w) ^ n = ((2 ^ n : ℕ) : BitVec w) := by push_cast; rfl
    rw [this]; exact BitVec.toNat_ofNat _ _
  rw [BitVec.toNat_shiftLeft, BitVec.toNat_mul, h, Nat.shiftLeft_eq, Nat.mod_mul_mod, mul_comm]

/-! ## Integer polynomials and their transforms -/

/-- An integer polynomial as a real one. -/
def toR (N : ℕ) [NeZero N] : Poly N ℤ →+* Poly N ℝ := mapHom (Int.castRingHom ℝ)

theorem toR_apply {N : ℕ} [NeZero N] (p : Poly N ℤ) (i : Fin N) : toR N p i = (p i : ℝ) := rfl

theorem signed_eq {N w : ℕ} [NeZero N] (p : Poly N (BitVec w)) : p.signed = toR N (Bfv.lift p) := rfl

section
variable {l : ℕ} {N : BitVec 64} (hN : N.toInt = 2 ^ (l + 4)) {e : Eval ℝ} (he : newEvaluator rcis N = some e)
include hN he

/-- The inverse transform of the transform of an integer polynomial, with an error below a half in every place. -/
theorem invFFT_int {w : ℕ} (hw : 0 < w) (δ : ℕ → ℝ) (hδ : ∀ a, |δ a| < 1 / 2) (fp : ℕ → ℝ) (Z : Poly (2 ^ (l + 4)) ℤ)
    (h : IsFFT fp (toR _ Z)) (hb : w < 64 ∨ (w = 64 ∧ iabs Z < 2 ^ 62)) :
    invFFT w e δ fp = some (ofIntP w Z).coeffs := by
  have hr := (good_of hN he).rank
  have h1 : ∀ i : Fin (2 ^ (l + 4)), invFFTAt w e δ fp i = some (ofIntP w Z i) := by
    intro i
    have hi := C45_invFFT hN he fp _ h i
    unfold invFFTAt
    simp only
    rw [hi, toR_apply]
    refine convert_spec w hw _ _ (hδ _) (hb.imp_right fun ⟨h1, h2⟩ => ⟨h1, ?_⟩)
    have h3 := natAbs_le_iabs Z i
    have h4 : ((Z i).natAbs : ℤ) < 2 ^ 62 := by exact_mod_cast h3.trans_lt h2
    rwa [Int.natCast_natAbs] at h4
  unfold invFFT
  rw [hr, ← List.map_coe_finRange_eq_range, List.mapM_map]
  unfold Poly.coeffs
  rw [List.ofFn_eq_map]
  exact mapM_some _ _ _ fun i _ => h1 i

/-! ## Recombination -/

omit hN he in
/-- Recombination of the inverse transforms; `τ` and `σ` say how the result is combined with the output. -/
theorem recombine_spec {w : ℕ} (asg0 asg : BitVec w → BitVec w → BitVec w) (τ σ : BitVec w)
    (ha0 : ∀ o x, asg0 o x = τ * o + σ * x) (ha : ∀ o x, asg o x = o + σ * x)
    (inv : ℕ → (ℕ → ℝ) → Option (List (BitVec w))) (b c : ℕ) (hc : 0 < c) (fp : ℕ → ℕ → ℝ)
    (A : ℕ → Poly (2 ^ (l + 4)) (BitVec w)) (step : ∀ i < c, inv i (fp i) = some (A i).coeffs)
    (out : Poly (2 ^ (l + 4)) (BitVec w)) :
    recombine asg0 asg inv b c fp out.coeffs = some
      (C _ τ * out + C _ σ * ∑ i ∈ Finset.range c, C _ (2 ^ (i * b)) * A i).coeffs := by
  have loop : ∀ n, n + 1 ≤ c → (List.range n).foldlM (fun out i =>
      (inv (i + 1) (fp (i + 1))).map fun x =>
        List.zipWith (fun o x => asg o ((x : BitVec w) <<< ((i + 1) * b))) out x)
      (List.zipWith asg0 out.coeffs (A 0).coeffs) = some
      (C _ τ * out + C _ σ * ∑ i ∈ Finset.range (n + 1), C _ (2 ^ (i * b)) * A i).coeffs := by
    intro n
    induction n with
    | zero =>
      intro _
      simp only [List.range_zero, List.foldlM_nil]
      refine congrArg some (zipWith_coeffs _ _ _ _ fun j => ?_)
      rw [ha0, Poly.add_apply, C_mul_apply, C_mul_apply, Finset.sum_range_one, zero_mul, pow_zero, C_one, one_mul]
    | succ n ih =>
      intro hn
      rw [List.range_succ, List.foldlM_append, ih (by omega)]
      simp only [Option.bind_eq_bind, Option.bind_some, List.foldlM_cons, List.foldlM_nil]
      rw [step (n + 1) (by omega)]
      simp only [Option.map_some, Option.bind_some]
      refine congrArg some (zipWith_coeffs _ _ _ _ fun j => ?_)
      rw [ha, Finset.sum_range_succ _ (n + 1), mul_add, ← add_assoc, Poly.add_apply (_ + _), C_mul_apply σ (C _ _ * _), C_mul_apply _ (A (n + 1)), shl_eq_mul]
  unfold recombine
  rw [step 0 hc, Option.bind_some, loop (c - 1) (by omega), Nat.sub_add_cancel hc]

/-! ## The limbs of a polynomial -/

omit hN he in
theorem split_sum {w : ℕ} {M : ℕ} [NeZero M] (signed : Bool) (b c : ℕ) (hb : 0 < b) (hbw : b < w) (hc : w ≤ c * b)
    (hc' : (c - 1) * b < w) (p : Poly M (BitVec w)) :
    ∑ i ∈ Finset.range c, C _ (2 ^ (i * b)) * pmap (limb signed b i) p = p := by
  funext j
  rw [Poly.sum_apply]
  refine Eq.trans (Finset.sum_congr rfl fun i _ => ?_) (limb_sum signed b c hb hbw hc hc' (p j))
  rw [C_mul_apply, pmap_apply, mul_comm]

omit hN he in
theorem iabs_limb {w : ℕ} {M : ℕ} (signed : Bool) (b i : ℕ) (hb : 0 < b) (hbw : b < w) (p : Poly M (BitVec w)) :
    iabs (Bfv.lift (pmap (limb signed b i) p)) ≤ 2 ^ b := by
  rw [iabs_le_iff]
  intro j
  exact limb_bound signed b i hb hbw (p j)

omit hN he in
theorem slice_pmap {w : ℕ} {M : ℕ} (signed : Bool) (b i : ℕ) (p : Poly M (BitVec w)) :
    (fun j => limb signed b i (p.slice j)) = (pmap (limb signed b i) p).slice := by
  funext j
  unfold Poly.slice
  split
  · rfl
  · cases signed <;> simp [limb]

/-! ## The double loop -/

/-- The products collected by the double loop. -/
def cross {R : Type} [CommRing R] (c : ℕ) (f g : ℕ → R) (k : ℕ) : R :=
  ∑ i ∈ Finset.range c, ∑ j ∈ Finset.range (c - i), if i + j = k then f i * g j else 0

omit hN he in
/-- Dropping the products from `c` on costs nothing when `x^c = 0`. -/
theorem cross_sum {R : Type} [CommRing R] (c : ℕ) (f g X : ℕ → R) (hX : ∀ i j, X (i + j) = X i * X j)
    (h0 : ∀ i, c ≤ i → X i = 0) :
    ∑ k ∈ Finset.range c, X k * cross c f g k = (∑ i ∈ Finset.range c, X i * f i) * ∑ j ∈ Finset.range c, X j * g j := by
  rw [Finset.sum_mul_sum]
  simp only [cross, Finset.mul_sum]
  rw [Finset.sum_comm]
  refine Finset.sum_congr rfl fun i hi => ?_
  rw [Finset.mem_range] at hi
  rw [Finset.sum_comm, ← Finset.sum_subset (s₁ := Finset.range (c - i)) (s₂ := Finset.range c)]
  · refine Finset.sum_congr rfl fun j hj => ?_
    rw [Finset.mem_range] at hj
    rw [Finset.sum_eq_single (i + j)]
    · rw [if_pos rfl, hX]; ring
    · intro k _ hk; rw [if_neg (Ne.symm hk), mul_zero]
    · intro hk; rw [Finset.mem_range] at hk; omega
  · intro j hj; rw [Finset.mem_range] at hj ⊢; omega
  · intro j _ hj
    rw [Finset.mem_range] at hj
    have := h0 (i + j) (by omega)
    rw [hX] at this
    linear_combination (f i * g j) * this

omit hN he in
theorem mulAdd_other (m : Mem ℝ) (out v0 v1 v : ℕ) (p : Poly (2 ^ (l + 4)) ℝ) (hv : v ≠ out) (hp : IsFFT (m v) p) :
    IsFFT (mulAddCmplx m out v0 v1 (2 ^ (l + 4)) v) p := by
  simp only [isFFT_iff] at *
  intro j hj
  rw [mulAddCmplx, cmplxLoop_spec _ _ _ _ _ _ (eight_mul l), if_neg (by simp [hv])]
  exact hp j hj

omit hN he in
theorem loop_cross (c : ℕ) (L0 L1 : ℕ → Poly (2 ^ (l + 4)) ℝ) (m : Mem ℝ) (h0 : ∀ k, IsFFT (m (3 * k)) (L0 k))
    (h1 : ∀ k, IsFFT (m (3 * k + 1)) (L1 k)) (h2 : ∀ k, IsFFT (m (3 * k + 2)) (0 : Poly (2 ^ (l + 4)) ℝ)) (k : ℕ) :
    IsFFT ((List.range c).foldl (fun m i => (List.range (c - i)).foldl (fun m j =>
      mulAddCmplx m (3 * (i + j) + 2) (3 * i) (3 * j + 1) (2 ^ (l + 4))) m) m (3 * k + 2)) (cross c L0 L1 k) := by
  let Rel : (ℕ → Poly (2 ^ (l + 4)) ℝ) → Mem ℝ → Prop := fun A m =>
    ∀ k, IsFFT (m (3 * k)) (L0 k) ∧ IsFFT (m (3 * k + 1)) (L1 k) ∧ IsFFT (m (3 * k + 2)) (A k)
  have inner : ∀ i n (A : ℕ → Poly (2 ^ (l + 4)) ℝ) m, Rel A m →
      Rel (fun k => A k + ∑ j ∈ Finset.range n, if i + j = k then L0 i * L1 j else 0)
        ((List.range n).foldl (fun m j => mulAddCmplx m (3 * (i + j) + 2) (3 * i) (3 * j + 1) (2 ^ (l + 4))) m) := by
    intro i n A m hm
    induction n with
    | zero => intro k; simpa using hm k
    | succ n ih =>
      rw [List.range_succ, List.foldl_append, List.foldl_cons, List.foldl_nil]
      intro k
      refine ⟨mulAdd_other _ _ _ _ _ _ (by omega) (ih k).1, mulAdd_other _ _ _ _ _ _ (by omega) (ih k).2.1, ?_⟩
      beta_reduce
      rw [Finset.sum_range_succ, ← add_assoc]
      by_cases hk : i + n = k
      · subst hk
        rw [if_pos rfl]
        exact C45_mulAdd _ _ _ _ _ _ _ (ih (i + n)).2.2 (ih i).1 (ih n).2.1
      · rw [if_neg hk, add_zero]
        exact mulAdd_other _ _ _ _ _ _ (by omega) (ih k).2.2
  have outer : ∀ n, Rel (fun k => ∑ i ∈ Finset.range n, ∑ j ∈ Finset.range (c - i), if i + j = k then L0 i * L1 j else 0)
      ((List.range n).foldl (fun m i => (List.range (c - i)).foldl (fun m j =>
        mulAddCmplx m (3 * (i + j) + 2) (3 * i) (3 * j + 1) (2 ^ (l + 4))) m) m) := by
    intro n
    induction n with
    | zero => intro k; exact ⟨h0 k, h1 k, by simpa using h2 k⟩
    | succ n ih =>
      rw [List.range_succ, List.foldl_append, List.foldl_cons, List.foldl_nil]
      have := inner n (c - n) _ _ ih
      intro k
      have h := this k
      refine ⟨h.1, h.2.1, ?_⟩
      beta_reduce
      rw [Finset.sum_range_succ]
      exact h.2.2
  exact (outer c k).2.2

/-! ## Sizes -/

omit hN he in
theorem count_spec (w b : ℕ) (hb : 0 < b) (hw : 0 < w) :
    w ≤ splitCount w b * b ∧ (splitCount w b - 1) * b < w ∧ 0 < splitCount w b ∧ splitCount w b ≤ w ∧
    (splitCount w b ≠ 1 → b < w) := by
  unfold splitCount
  have h1 := Nat.div_add_mod (w + b - 1) b
  have h2 := Nat.mod_lt (w + b - 1) hb
  generalize (w + b - 1) / b = c at *
  generalize (w + b - 1) % b = r at *
  have h3 : c * b = b * c := mul_comm _ _
  have hc : 0 < c := by
    rcases Nat.eq_zero_or_pos c with rfl | h
    · omega
    · exact h
  have h4 : (c - 1) * b = b * c - b := by rw [Nat.sub_mul, one_mul, h3]
  have h5 : b ≤ b * c := Nat.le_mul_of_pos_right _ hc
  refine ⟨by omega, by omega, hc, ?_, ?_⟩
  · by_contra hlt
    have h6 : b * (w + 1) ≤ b * c := Nat.mul_le_mul_left _ (by omega)
    have h7 : b * (w + 1) = b * w + b := by ring
    have h8 : 1 * w ≤ b * w := Nat.mul_le_mul_right _ hb
    omega
  · intro hne
    have h6 : b * 2 ≤ b * c := Nat.mul_le_mul_left _ (by omega)
    omega

omit hN he in
theorem toR_cross (c : ℕ) (f g : ℕ → Poly (2 ^ (l + 4)) ℤ) (k : ℕ) :
    cross c (fun i => toR _ (f i)) (fun i => toR _ (g i)) k = toR (2 ^ (l + 4)) (cross c f g k) := by
  unfold cross
  rw [map_sum]
  refine Finset.sum_congr rfl fun i _ => ?_
  rw [map_sum]
  refine Finset.sum_congr rfl fun j _ => ?_
  split
  · rw [map_mul]
  · rw [map_zero]

omit hN he in
theorem ofInt_cross (w c : ℕ) (f g : ℕ → Poly (2 ^ (l + 4)) (BitVec w)) (k : ℕ) :
    ofIntP w (cross c (fun i => Bfv.lift (f i)) (fun i => Bfv.lift (g i)) k) = cross c f g k := by
  rw [← ofIntHom_apply]
  unfold cross
  rw [map_sum]
  refine Finset.sum_congr rfl fun i _ => ?_
  rw [map_sum]
  refine Finset.sum_congr rfl fun j _ => ?_
  split
  · rw [map_mul, ofIntHom_apply, ofIntHom_apply, ofIntP_lift, ofIntP_lift]
  · rw [map_zero]

omit hN he in
theorem iabs_cross (c : ℕ) (f g : ℕ → Poly (2 ^ (l + 4)) ℤ) (B : ℕ) (hf : ∀ i, iabs (f i) ≤ B) (hg : ∀ i, iabs (g i) ≤ B)
    (k : ℕ) : iabs (cross c f g k) ≤ c * (c * (2 ^ (l + 4) * (B * B))) := by
  have h := (intNorm (2 ^ (l + 4))).sum_le_card (Finset.range c)
    (fun i => ∑ j ∈ Finset.range (c - i), if i + j = k then f i * g j else 0) (c * (2 ^ (l + 4) * (B * B))) (by
      intro i _
      have h := (intNorm (2 ^ (l + 4))).sum_le_card (Finset.range (c - i))
        (fun j => if i + j = k then f i * g j else 0) (2 ^ (l + 4) * (B * B)) (by
          intro j _
          split
          · exact ((intNorm (2 ^ (l + 4))).mul_le _ _).trans
              (Nat.mul_le_mul_left _ (Nat.mul_le_mul (hf i) (hg j)))
          · rw [(intNorm (2 ^ (l + 4))).zero]; omega)
      refine h.trans (Nat.mul_le_mul_right _ ?_)
      rw [Finset.card_range]; omega)
  rw [Finset.card_range] at h
  exact h

omit hN he in
theorem C_pow_zero {w : ℕ} {M : ℕ} [NeZero M] (n : ℕ) (h : w ≤ n) : C M ((2 : BitVec w) ^ n) = 0 := by
  obtain ⟨k, rfl⟩ := Nat.exists_eq_add_of_le h
  rw [pow_add, two_pow_w, zero_mul, C_zero]

/-! ## The multiplications -/

omit hN he in
/-- The multiplications over any arithmetic in which the inverse transforms return the products that are expected of them. -/
theorem mulPolyWith_spec {w : ℕ} (ops : Ops ℝ w) (hr : ops.rank = 2 ^ (l + 4)) (hw : 0 < w) (hl : l + 4 ≤ 44)
    (asg0 asg : BitVec w → BitVec w → BitVec w)
    (τ σ : BitVec w) (ha0 : ∀ o x, asg0 o x = τ * o + σ * x) (ha : ∀ o x, asg o x = o + σ * x) (signed : Bool)
    (out p0 p1 : Poly (2 ^ (l + 4)) (BitVec w))
    (H1 : w ≤ splitBits (2 ^ (l + 4)) →
      ops.inv 0 (ops.mul (fun v => if v = 0 then ops.fwd (fun _ => 0) p0.slice else ops.fwd (fun _ => 0) p1.slice) 0 0 1
        (2 ^ (l + 4)) 0) = some (p0 * p1).coeffs)
    (H2 : ∀ b c, b = splitBits (2 ^ (l + 4)) → c = splitCount w b → b < w → ∀ k < c,
      ops.inv k ((List.range c).foldl (fun m i =>
        (List.range (c - i)).foldl (fun m j => ops.mulAdd m (3 * (i + j) + 2) (3 * i) (3 * j + 1) (2 ^ (l + 4))) m)
        (fun v => if v % 3 = 0 then ops.fwd (fun _ => 0) (pmap (limb signed b (v / 3)) p0).slice
          else if v % 3 = 1 then ops.fwd (fun _ => 0) (pmap (limb signed b (v / 3)) p1).slice else fun _ => 0) (3 * k + 2)) =
      some (cross c (fun i => pmap (limb signed b i) p0) (fun i => pmap (limb signed b i) p1) k).coeffs) :
    mulPolyWith ops asg0 asg signed out.coeffs p0.slice p1.slice = some (C _ τ * out + C _ σ * (p0 * p1)).coeffs := by
  have hbits : splitBits (2 ^ (l + 4)) = (48 - (l + 4)) / 4 := by rw [splitBits, bitLen_two_pow, Nat.add_sub_cancel]
  unfold mulPolyWith
  simp only
  rw [hr]
  set b := splitBits (2 ^ (l + 4)) with hbdef
  have hb : 0 < b := by omega
  obtain ⟨hc1, hc2, hc3, hc4, hc5⟩ := count_spec w b hb hw
  split
  · rename_i h1
    rw [H1 (by rw [h1] at hc1; omega), Option.map_some]
    refine congrArg some (zipWith_coeffs _ _ _ _ fun j => ?_)
    rw [ha0, Poly.add_apply, C_mul_apply, C_mul_apply]
  · rename_i hne
    have hbw := hc5 hne
    simp only [slice_pmap]
    rw [recombine_spec asg0 asg τ σ ha0 ha ops.inv b _ hc3 _ _ (H2 b _ rfl rfl hbw) out]
    rw [cross_sum _ _ _ (fun i => C (2 ^ (l + 4)) ((2 : BitVec w) ^ (i * b)))
      (fun i j => by rw [add_mul, ← C_mul]; congr 1; exact pow_add _ _ _)
      (fun i hi => C_pow_zero _ (hc1.trans (Nat.mul_le_mul_right b hi)))]
    rw [split_sum signed b _ hb hbw hc1 hc2 p0, split_sum signed b _ hb hbw hc1 hc2 p1]

theorem mulPoly_spec {w : ℕ} (hw : 0 < w) (hw64 : w ≤ 64) (hl : l + 4 ≤ 44) (asg0 asg : BitVec w → BitVec w → BitVec w)
    (τ σ : BitVec w) (ha0 : ∀ o x, asg0 o x = τ * o + σ * x) (ha : ∀ o x, asg o x = o + σ * x) (signed : Bool)
    (δ : ℕ → ℕ → ℝ) (hδ : ∀ i a, |δ i a| < 1 / 2) (out p0 p1 : Poly (2 ^ (l + 4)) (BitVec w)) :
    mulPoly asg0 asg signed e δ out.coeffs p0.slice p1.slice = some (C _ τ * out + C _ σ * (p0 * p1)).coeffs := by
  have hr := (good_of hN he).rank
  have hbits : splitBits (2 ^ (l + 4)) = (48 - (l + 4)) / 4 := by rw [splitBits, bitLen_two_pow, Nat.add_sub_cancel]
  have hb0 : 0 < splitBits (2 ^ (l + 4)) := by omega
  refine mulPolyWith_spec (exactOps e δ) hr hw hl asg0 asg τ σ ha0 ha signed out p0 p1 ?_ ?_
  · -- one limb
    intro hwb
    set m : Mem ℝ := fun v => if v = 0 then fwdFFT e (fun _ => 0) p0.slice else fwdFFT e (fun _ => 0) p1.slice with hm
    have h0 : IsFFT (m 0) p0.signed := C45_fwdFFT hN he _ p0
    have h1 : IsFFT (m 1) p1.signed := C45_fwdFFT hN he _ p1
    have h2 := (C45_mul m 0 0 1 _ _ h0 h1).1
    rw [signed_eq, signed_eq, ← map_mul] at h2
    refine (invFFT_int hN he hw _ (hδ 0) _ _ h2 (Or.inl (by omega))).trans ?_
    rw [← ofIntHom_apply, map_mul, ofIntHom_apply, ofIntHom_apply, ofIntP_lift, ofIntP_lift]
  · intro b c hbdef hcdef hbw k _
    have hb : 0 < b := by omega
    obtain ⟨hc1, hc2, hc3, hc4, hc5⟩ := count_spec w b hb hw
    rw [← hcdef] at hc1 hc2 hc3 hc4 hc5
    set f : ℕ → Poly (2 ^ (l + 4)) (BitVec w) := fun i => pmap (limb signed b i) p0 with hf
    set g : ℕ → Poly (2 ^ (l + 4)) (BitVec w) := fun i => pmap (limb signed b i) p1 with hg
    set m : Mem ℝ := fun v =>
      if v % 3 = 0 then fwdFFT e (fun _ => 0) (pmap (limb signed b (v / 3)) p0).slice
      else if v % 3 = 1 then fwdFFT e (fun _ => 0) (pmap (limb signed b (v / 3)) p1).slice
      else fun _ => 0 with hm
    have h0 : ∀ k, IsFFT (m (3 * k)) (f k).signed := by
      intro k
      rw [hm]; beta_reduce
      rw [if_pos (by omega), show 3 * k / 3 = k by omega]
      exact C45_fwdFFT hN he _ _
    have h1 : ∀ k, IsFFT (m (3 * k + 1)) (g k).signed := by
      intro k
      rw [hm]; beta_reduce
      rw [if_neg (by omega), if_pos (by omega), show (3 * k + 1) / 3 = k by omega]
      exact C45_fwdFFT hN he _ _
    have h2 : ∀ k, IsFFT (m (3 * k + 2)) (0 : Poly (2 ^ (l + 4)) ℝ) := by
      intro k j _
      rw [hm]; beta_reduce
      rw [if_neg (by omega), if_neg (by omega), ← evalHom_apply _ (point_pow_N l j), map_zero]
      rfl
    have h3 := loop_cross c _ _ m h0 h1 h2
    have h4 : ∀ k, IsFFT _ (toR (2 ^ (l + 4)) (cross c (fun i => Bfv.lift (f i)) (fun i => Bfv.lift (g i)) k)) := fun k => by
      rw [← toR_cross]; exact h3 k
    have hbound : w < 64 ∨ (w = 64 ∧ iabs (cross c (fun i => Bfv.lift (f i)) (fun i => Bfv.lift (g i)) k) < 2 ^ 62) := by
      rcases Nat.lt_or_ge w 64 with h | h
      · exact Or.inl h
      · refine Or.inr ⟨by omega, ?_⟩
        have hk := iabs_cross (l := l) c (fun i => Bfv.lift (f i)) (fun i => Bfv.lift (g i)) (2 ^ b)
          (fun i => iabs_limb signed b i hb hbw p0) (fun i => iabs_limb signed b i hb hbw p1) k
        have hc64 : c ≤ 64 := by omega
        have h5 : 2 ^ (l + 4) * (2 ^ b * 2 ^ b) ≤ 2 ^ 46 := by
          rw [← pow_add, ← pow_add]; exact Nat.pow_le_pow_right (by norm_num) (by omega)
        calc _ ≤ c * (c * (2 ^ (l + 4) * (2 ^ b * 2 ^ b))) := hk
          _ ≤ 64 * (64 * 2 ^ 46) := Nat.mul_le_mul hc64 (Nat.mul_le_mul hc64 h5)
          _ < 2 ^ 62 := by norm_num
    refine (invFFT_int hN he hw _ (hδ k) _ _ (h4 k) hbound).trans ?_
    rw [ofInt_cross]

/-- **C46.**  `MulPolyTo` writes the negacyclic product, for every word size up to 64 bits, signed and unsigned, and every rank up
to `2^44`, when no coefficient of an inverse transform is off by a half or more.  The previous contents of the output do not
matter. -/
theorem C46_mul {w : ℕ} (hw : 0 < w) (hw64 : w ≤ 64) (hl : l + 4 ≤ 44) (signed : Bool)
    (δ : ℕ → ℕ → ℝ) (hδ : ∀ i a, |δ i a| < 1 / 2) (out p0 p1 : Poly (2 ^ (l + 4)) (BitVec w)) :
    mulPolyTo signed e δ out.coeffs p0.slice p1.slice = some (p0 * p1).coeffs := by
  have := mulPoly_spec hN he hw hw64 hl (fun _ x => x) (fun o x => o + x) 0 1 (by intro o x; ring) (by intro o x; ring)
    signed δ hδ out p0 p1
  rwa [C_zero, C_one, zero_mul, zero_add, one_mul] at this

/-- **C46.**  `MulAddPolyTo` adds the negacyclic product. -/
theorem C46_mulAdd {w : ℕ} (hw : 0 < w) (hw64 : w ≤ 64) (hl : l + 4 ≤ 44) (signed : Bool)
    (δ : ℕ → ℕ → ℝ) (hδ : ∀ i a, |δ i a| < 1 / 2) (out p0 p1 : Poly (2 ^ (l + 4)) (BitVec w)) :
    mulAddPolyTo signed e δ out.coeffs p0.slice p1.slice = some (out + p0 * p1).coeffs := by
  have := mulPoly_spec hN he hw hw64 hl (fun o x => o + x) (fun o x => o + x) 1 1 (by intro o x; ring) (by intro o x; ring)
    signed δ hδ out p0 p1
  rwa [C_one, one_mul, one_mul] at this

/-- **C46.**  `MulSubPolyTo` subtracts the negacyclic product. -/
theorem C46_mulSub {w : ℕ} (hw : 0 < w) (hw64 : w ≤ 64) (hl : l + 4 ≤ 44) (signed : Bool)
    (δ : ℕ → ℕ → ℝ) (hδ : ∀ i a, |δ i a| < 1 / 2) (out p0 p1 : Poly (2 ^ (l + 4)) (BitVec w)) :
    mulSubPolyTo signed e δ out.coeffs p0.slice p1.slice = some (out - p0 * p1).coeffs := by
  have := mulPoly_spec hN he hw hw64 hl (fun o x => o - x) (fun o x => o - x) 1 (-1) (by intro o x; ring)
    (by intro o x; ring) signed δ hδ out p0 p1
  rwa [C_one, one_mul, C_neg, C_one, neg_one_mul, ← sub_eq_add_neg] at this

/-! ## A short factor in the transform domain -/

omit hN he in
theorem mul_other (m : Mem ℝ) (out v0 v1 v : ℕ) (p : Poly (2 ^ (l + 4)) ℝ) (hv : v ≠ out) (hp : IsFFT (m v) p) :
    IsFFT (mulCmplx m out v0 v1 (2 ^ (l + 4)) v) p := by
  simp only [isFFT_iff] at *
  intro j hj
  rw [mulCmplx, cmplxLoop_spec _ _ _ _ _ _ (eight_mul l), if_neg (by simp [hv])]
  exact hp j hj

omit hN he in
/-- The multiplications by a short factor, over any arithmetic. -/
theorem shortMulWith_spec {w : ℕ} (ops : Ops ℝ w) (hr : ops.rank = 2 ^ (l + 4)) (hw : 0 < w) (hl : l + 4 ≤ 30)
    (asg0 asg : BitVec w → BitVec w → BitVec w)
    (τ σ : BitVec w) (ha0 : ∀ o x, asg0 o x = τ * o + σ * x) (ha : ∀ o x, asg o x = o + σ * x) (signed : Bool)
    (old : ℕ → ℝ) (out p : Poly (2 ^ (l + 4)) (BitVec w)) (fpShort : ℕ → ℝ) (s : Poly (2 ^ (l + 4)) (BitVec w))
    (H1 : w ≤ splitBitsShort (2 ^ (l + 4)) →
      ops.inv 0 (ops.mul (fun v => if v = 0 then fpShort else ops.fwd old p.slice) 1 1 0 (2 ^ (l + 4)) 1) =
        some (p * s).coeffs)
    (H2 : ∀ b c, b = splitBitsShort (2 ^ (l + 4)) → c = splitCount w b → b < w → ∀ k < c,
      ops.inv k ((List.range c).foldl (fun m i =>
        ops.mul (fun v => if v = i + 1 then ops.fwd (m v) (pmap (limb signed b i) p).slice else m v)
          (i + 1) (i + 1) 0 (2 ^ (l + 4))) (fun v => if v = 0 then fpShort else old) (k + 1)) =
      some (pmap (limb signed b k) p * s).coeffs) :
    shortMulWith ops asg0 asg signed old out.coeffs p.slice fpShort = some (C _ τ * out + C _ σ * (p * s)).coeffs := by
  have hbits : splitBitsShort (2 ^ (l + 4)) = (48 - 2 * 8 - (l + 4)) / 2 := by
    rw [splitBitsShort, bitLen_two_pow, Nat.add_sub_cancel]
  unfold shortMulWith
  simp only
  rw [hr]
  set b := splitBitsShort (2 ^ (l + 4)) with hbdef
  have hb : 0 < b := by omega
  obtain ⟨hc1, hc2, hc3, hc4, hc5⟩ := count_spec w b hb hw
  split
  · rename_i h1
    rw [H1 (by rw [h1] at hc1; omega), Option.map_some]
    refine congrArg some (zipWith_coeffs _ _ _ _ fun j => ?_)
    rw [ha0, Poly.add_apply, C_mul_apply, C_mul_apply]
  · rename_i hne
    have hbw := hc5 hne
    simp only [slice_pmap]
    rw [recombine_spec asg0 asg τ σ ha0 ha ops.inv b _ hc3 _ _ (H2 b _ rfl rfl hbw) out]
    simp only [← mul_assoc]
    rw [← Finset.sum_mul, split_sum signed b _ hb hbw hc1 hc2 p, mul_assoc]

theorem shortMul_spec {w : ℕ} (hw : 0 < w) (hw64 : w ≤ 64) (hl : l + 4 ≤ 30) (asg0 asg : BitVec w → BitVec w → BitVec w)
    (τ σ : BitVec w) (ha0 : ∀ o x, asg0 o x = τ * o + σ * x) (ha : ∀ o x, asg o x = o + σ * x) (signed : Bool)
    (δ : ℕ → ℕ → ℝ) (hδ : ∀ i a, |δ i a| < 1 / 2) (old : ℕ → ℝ) (out p : Poly (2 ^ (l + 4)) (BitVec w)) (fpShort : ℕ → ℝ)
    (s : Poly (2 ^ (l + 4)) ℤ) (hs : IsFFT fpShort (toR _ s)) (hs8 : iabs s ≤ 2 ^ 8) :
    shortMul asg0 asg signed e δ old out.coeffs p.slice fpShort =
      some (C _ τ * out + C _ σ * (p * ofIntP w s)).coeffs := by
  have hr := (good_of hN he).rank
  have hbits : splitBitsShort (2 ^ (l + 4)) = (48 - 2 * 8 - (l + 4)) / 2 := by
    rw [splitBitsShort, bitLen_two_pow, Nat.add_sub_cancel]
  have hb0 : 0 < splitBitsShort (2 ^ (l + 4)) := by omega
  refine shortMulWith_spec (exactOps e δ) hr hw hl asg0 asg τ σ ha0 ha signed old out p fpShort _ ?_ ?_
  · intro hwb
    set m : Mem ℝ := fun v => if v = 0 then fpShort else fwdFFT e old p.slice with hm
    have h0 : IsFFT (m 1) p.signed := C45_fwdFFT hN he _ p
    have h1 : IsFFT (m 0) (toR _ s) := hs
    have h2 := (C45_mul m 1 1 0 _ _ h0 h1).1
    rw [signed_eq, ← map_mul] at h2
    refine (invFFT_int hN he hw _ (hδ 0) _ _ h2 (Or.inl (by omega))).trans ?_
    rw [← ofIntHom_apply, map_mul, ofIntHom_apply, ofIntHom_apply, ofIntP_lift]
  · intro b c hbdef hcdef hbw k hk
    have hb : 0 < b := by omega
    set f : ℕ → Poly (2 ^ (l + 4)) (BitVec w) := fun i => pmap (limb signed b i) p with hf
    set stp : Mem ℝ → ℕ → Mem ℝ := fun m i =>
      mulCmplx (fun v => if v = i + 1 then fwdFFT e (m v) (f i).slice else m v)
        (i + 1) (i + 1) 0 (2 ^ (l + 4)) with hstp
    have loop : ∀ n, let m := (List.range n).foldl stp (fun v => if v = 0 then fpShort else old)
        IsFFT (m 0) (toR _ s) ∧ ∀ k < n, IsFFT (m (k + 1)) (toR _ (Bfv.lift (f k) * s)) := by
      intro n
      induction n with
      | zero => exact ⟨hs, fun k hk => absurd hk (by omega)⟩
      | succ n ih =>
        simp only [List.range_succ, List.foldl_append, List.foldl_cons, List.foldl_nil]
        simp only at ih
        generalize (List.range n).foldl stp (fun v => if v = 0 then fpShort else old) = m at ih ⊢
        set m' : Mem ℝ := fun v => if v = n + 1 then fwdFFT e (m v) (f n).slice else m v with hm'
        have e0 : m' 0 = m 0 := if_neg (by omega)
        have e1 : IsFFT (m' (n + 1)) (f n).signed := by
          rw [hm']; beta_reduce
          rw [if_pos rfl]
          exact C45_fwdFFT hN he _ _
        have e2 : stp m n = mulCmplx m' (n + 1) (n + 1) 0 (2 ^ (l + 4)) := rfl
        rw [e2]
        refine ⟨mul_other _ _ _ _ _ _ (by omega) (by rw [e0]; exact ih.1), fun k hk => ?_⟩
        by_cases hkn : k = n
        · subst hkn
          rw [map_mul]
          exact (C45_mul m' _ _ _ _ _ e1 (by rw [e0]; exact ih.1)).1
        · refine mul_other _ _ _ _ _ _ (by omega) ?_
          have : m' (k + 1) = m (k + 1) := if_neg (by omega)
          rw [this]
          exact ih.2 k (by omega)
    have hbound : w < 64 ∨ (w = 64 ∧ iabs (Bfv.lift (f k) * s) < 2 ^ 62) := by
      rcases Nat.lt_or_ge w 64 with h | h
      · exact Or.inl h
      · refine Or.inr ⟨by omega, ?_⟩
        have hk := (intNorm (2 ^ (l + 4))).mul_le (Bfv.lift (f k)) s
        have h5 : 2 ^ (l + 4) * (2 ^ b * 2 ^ 8) ≤ 2 ^ 46 := by
          rw [← pow_add, ← pow_add]; exact Nat.pow_le_pow_right (by norm_num) (by omega)
        have hfk : iabs (Bfv.lift (f k)) ≤ 2 ^ b := iabs_limb signed b k hb hbw p
        calc _ ≤ 2 ^ (l + 4) * (iabs (Bfv.lift (f k)) * iabs s) := hk
          _ ≤ 2 ^ (l + 4) * (2 ^ b * 2 ^ 8) := Nat.mul_le_mul_left _ (Nat.mul_le_mul hfk hs8)
          _ ≤ 2 ^ 46 := h5
          _ < 2 ^ 62 := by norm_num
    refine (invFFT_int hN he hw _ (hδ k) _ _ ((loop c).2 k hk) hbound).trans ?_
    rw [← ofIntHom_apply, map_mul, ofIntHom_apply, ofIntHom_apply, ofIntP_lift]

section
variable {w : ℕ} (hw : 0 < w) (hw64 : w ≤ 64) (hl : l + 4 ≤ 30) (signed : Bool) (δ : ℕ → ℕ → ℝ)
  (hδ : ∀ i a, |δ i a| < 1 / 2) (old : ℕ → ℝ) (out p : Poly (2 ^ (l + 4)) (BitVec w)) (fpShort : ℕ → ℝ)
  (s : Poly (2 ^ (l + 4)) ℤ) (hs : IsFFT fpShort (toR _ s)) (hs8 : iabs s ≤ 2 ^ 8)
include hw hw64 hl hδ hs hs8

/-- **C46.**  `ShortFFTPolyMulPolyTo`: the product with an integer polynomial of coefficients up to `2^8`, given by its
transform, for every rank up to `2^30`; neither the scratch buffers (`old`) nor the output matter. -/
theorem C46_short :
    shortMulTo signed e δ old out.coeffs p.slice fpShort = some (p * ofIntP w s).coeffs := by
  have := shortMul_spec hN he hw hw64 hl (fun _ x => x) (fun o x => o + x) 0 1 (by intro o x; ring) (by intro o x; ring)
    signed δ hδ old out p fpShort s hs hs8
  rwa [C_zero, C_one, zero_mul, zero_add, one_mul] at this

/-- **C46.**  `ShortFFTPolyMulAddPolyTo`. -/
theorem C46_shortAdd :
    shortMulAddTo signed e δ old out.coeffs p.slice fpShort = some (out + p * ofIntP w s).coeffs := by
  have := shortMul_spec hN he hw hw64 hl (fun o x => o + x) (fun o x => o + x) 1 1 (by intro o x; ring) (by intro o x; ring)
    signed δ hδ old out p fpShort s hs hs8
  rwa [C_one, one_mul, one_mul] at this

/-- **C46.**  `ShortFFTPolyMulSubPolyTo`. -/
theorem C46_shortSub :
    shortMulSubTo signed e δ old out.coeffs p.slice fpShort = some (out - p * ofIntP w s).coeffs := by
  have := shortMul_spec hN he hw hw64 hl (fun o x => o - x) (fun o x => o - x) 1 (-1) (by intro o x; ring)
    (by intro o x; ring) signed δ hδ old out p fpShort s hs hs8
  rwa [C_one, one_mul, C_neg, C_one, neg_one_mul, ← sub_eq_add_neg] at this
end
end

/-! ## Cases -/

/-- Rank 1024, 64-bit words: any two polynomials, any previous output, an error of 0.4 in every place.  There are 8 limbs of 9
bits, so the last signed limb divides by the smallest integer. -/
example (signed : Bool) (out p q : Poly (2 ^ (6 + 4)) (BitVec 64)) : ∃ e, newEvaluator rcis 1024#64 = some e ∧
    splitBits 1024 = 9 ∧ splitCount 64 9 = 8 ∧
    mulPolyTo signed e (fun _ _ => 2 / 5) out.coeffs p.slice q.slice = some (p * q).coeffs := by
  have hN : (1024#64).toInt = 2 ^ (6 + 4) := by decide
  obtain ⟨e, he⟩ := Option.isSome_iff_exists.1 ((C45_newEvaluator 1024#64).2 ⟨6, hN⟩)
  exact ⟨e, he, by decide +kernel, by decide, C46_mul hN he (by norm_num) (by norm_num) (by norm_num) signed _
    (fun _ _ => by rw [abs_of_pos] <;> norm_num) out p q⟩

/-- Rank 2048, 32-bit words, the short factor is the transform of a binary polynomial. -/
example (out p : Poly (2 ^ (7 + 4)) (BitVec 32)) (s : Poly (2 ^ (7 + 4)) (BitVec 32)) (hs : ∀ i, s i = 0 ∨ s i = 1) :
    ∃ e, newEvaluator rcis 2048#64 = some e ∧
    shortMulAddTo false e (fun _ _ => -2 / 5) (fun _ => 3) out.coeffs p.slice (fwdFFT e (fun _ => 1) s.slice) =
      some (out + p * s).coeffs := by
  have hN : (2048#64).toInt = 2 ^ (7 + 4) := by decide
  obtain ⟨e, he⟩ := Option.isSome_iff_exists.1 ((C45_newEvaluator 2048#64).2 ⟨7, hN⟩)
  have h1 := C45_fwdFFT hN he (fun _ => 1) s
  have h2 := C46_shortAdd hN he (by norm_num) (by norm_num) (by norm_num) false (fun _ _ => -2 / 5)
    (fun _ _ => by rw [abs_of_neg] <;> norm_num) (fun _ => 3) out p _ (Bfv.lift s) h1 (by
      rw [iabs_le_iff]
      intro i
      rcases hs i with h | h <;> simp [Bfv.lift, h])
  rw [ofIntP_lift] at h2
  exact ⟨e, he, h2⟩

end Tfhe
