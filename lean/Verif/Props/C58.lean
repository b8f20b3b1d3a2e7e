import Verif.Lemma.FftOps
import Verif.Props.C57

/-!
# C58: operations in the Fourier domain
-/
namespace Tfhe
open Fft Poly

section
variable {F : Float64} {u : ℝ} (hF : RoundsTo F u) {l w : ℕ} {e : Eval ℝ} {b : FBuf}
  (hr : e.rank = 2 ^ (l + 4)) (hl : l + 3 ≤ 64) (op : FOp w) (m : Mem ℝ) (out x y : ℕ)

include hF hr hl in
/-- Every operation on polynomials in the Fourier domain computes the operation on polynomials that its name says, up to the stated
error, whatever the output held and whichever arguments are the same vector, permutations from vector to vector excepted.  The
arguments keep their contents, unless one of them is the output. -/
theorem C58_op (o' x' y' : Poly (2 ^ (l + 4)) ℝ) (δf δo δx δy : ℝ)
    (hf : ∀ p, op.poly = some p → ∀ old, NearFFT δf (fwdFFTFl F.arith e old p) (signedOf (2 ^ (l + 4)) p))
    (hd : ∀ d, op.exponent = some d → d % 2 ≠ 0) (hne : op.apart → out ≠ x)
    (hb : out ≠ b.fp ∧ x ≠ b.fp ∧ out ≠ b.fpOut)
    (ho : op.usesOut → NearFFT δo (m out) o') (hx : op.usesX → NearFFT δx (m x) x') (hy : op.usesY → NearFFT δy (m y) y') :
    ∃ m', op.run F e b out x y m = some m' ∧ NearFFT (op.err u δf o' x' y' δo δx δy) (m' out) (op.val o' x' y') ∧
      ∀ v, v ≠ out → v ≠ b.fp → v ≠ b.fpOut → m' v = m v := by
  obtain ⟨hb1, hb2, hb3⟩ := hb
  have hA := arith_ok hF
  have hu := hF.1
  cases op with
  | add =>
    have h := add_run hF m out x y (hx trivial) (hy trivial)
    exact ⟨_, by rw [FOp.run, hr], h.1, fun v hv _ _ => h.2 v hv⟩
  | sub =>
    have h := sub_run hF m out x y (hx trivial) (hy trivial)
    exact ⟨_, by rw [FOp.run, hr], h.1, fun v hv _ _ => h.2 v hv⟩
  | mul =>
    have h := mul_run hF m out x y (hx trivial) (hy trivial)
    exact ⟨_, by rw [FOp.run, hr], h.1, fun v hv _ _ => h.2 v hv⟩
  | mulAdd =>
    have h := mulAdd_run hF m out x y (ho trivial) (hx trivial) (hy trivial)
    exact ⟨_, by rw [FOp.run, hr], h.1, fun v hv _ _ => h.2 v hv⟩
  | mulSub =>
    have h := mulSub_run hF m out x y (ho trivial) (hx trivial) (hy trivial)
    exact ⟨_, by rw [FOp.run, hr], h.1, fun v hv _ _ => h.2 v hv⟩
  | neg =>
    have h := loop_near (l := l) (fun _ x _ => (-x.1, -x.2)) m out x x δx (-x') fun j hj => by
      have h1 := (nearFFT_iff _ _ _).1 (hx trivial) j hj
      rw [ev_neg, ← norm_neg]
      have : -(toC (-(m x (pos j)), -(m x (pos j + 4))) - -ev l x' j) = view (m x) j - ev l x' j := by
        apply Complex.ext <;> simp [toC, view] <;> ring
      exact (congrArg _ this).trans_le h1
    exact ⟨_, by rw [FOp.run, hr, negCmplxTo], h.1, fun v hv _ _ => h.2 v hv⟩
  | floatMul c =>
    have h := loop_near (l := l) (fun _ x _ => (F.fl (c * x.1), F.fl (c * x.2))) m out x x _ (C _ c * x') fun j hj => by
      rw [ev_mul, ev_C]
      exact floatMul_near hF c ((nearFFT_iff _ _ _).1 (hx trivial) j hj) (norm_evalAt_le l j _)
    exact ⟨_, by rw [FOp.run, hr, floatMulCmplxTo], h.1, fun v hv _ _ => h.2 v hv⟩
  | floatMulAdd c =>
    have h := loop_near (l := l) (fun o x _ => (addMulFl F 1 o.1 c x.1, addMulFl F 1 o.2 c x.2)) m out x x _ (o' + C _ c * x')
      fun j hj => by
        have := addMul_near hF 1 c (by norm_num) ((nearFFT_iff _ _ _).1 (ho trivial) j hj) ((nearFFT_iff _ _ _).1 (hx trivial) j hj)
          (norm_evalAt_le l j _) (norm_evalAt_le l j _)
        rw [Complex.ofReal_one, one_mul] at this
        rw [ev_add, ev_mul, ev_C]
        exact this
    exact ⟨_, by rw [FOp.run, hr, floatMulAddCmplxTo], h.1, fun v hv _ _ => h.2 v hv⟩
  | floatMulSub c =>
    have h := loop_near (l := l) (fun o x _ => (addMulFl F (-1) o.1 c x.1, addMulFl F (-1) o.2 c x.2)) m out x x _ (o' - C _ c * x')
      fun j hj => by
        have := addMul_near hF (-1) c (by norm_num) ((nearFFT_iff _ _ _).1 (ho trivial) j hj)
          ((nearFFT_iff _ _ _).1 (hx trivial) j hj) (norm_evalAt_le l j _) (norm_evalAt_le l j _)
        rw [Complex.ofReal_neg, Complex.ofReal_one, neg_one_mul, ← sub_eq_add_neg] at this
        rw [ev_sub, ev_mul, ev_C]
        exact this
    exact ⟨_, by rw [FOp.run, hr, floatMulSubCmplxTo], h.1, fun v hv _ _ => h.2 v hv⟩
  | cmplxMul c =>
    have h := loop_near (l := l) (fun _ x _ => (F.arith.atConst.mulSub x.1 c.1 x.2 c.2, F.arith.atConst.mulAdd x.1 c.2 x.2 c.1)) m out x x
      ((FOp.cmplxMul c : FOp w).err u δf o' x' y' δo δx δy) ((FOp.cmplxMul c : FOp w).val o' x' y') fun j hj => by
        simp only [FOp.val, FOp.over, id_eq]
        rw [ev_cmplx_mul]
        refine (cm_near' hA.atConst hu ((nearFFT_iff _ _ _).1 (hx trivial) j hj) (y := ⟨c.1, c.2⟩) (Y := ⟨c.1, c.2⟩) (δy := 0) (by simp)
          (norm_evalAt_le l j _) le_rfl).trans (le_of_eq ?_)
        simp only [FOp.err]; ring
    exact ⟨_, by rw [FOp.run, hr, cmplxMulCmplxTo], h.1, fun v hv _ _ => h.2 v hv⟩
  | cmplxMulAdd c =>
    have h := loop_near (l := l) (fun o x _ => (F.arith.atConst.accSub 1 o.1 x.1 c.1 x.2 c.2,
        F.arith.atConst.accAdd 1 o.2 x.1 c.2 x.2 c.1)) m out x x
      ((FOp.cmplxMulAdd c : FOp w).err u δf o' x' y' δo δx δy) ((FOp.cmplxMulAdd c : FOp w).val o' x' y') fun j hj => by
        simp only [FOp.val, FOp.over, id_eq]
        rw [ev_add, ev_cmplx_mul]
        refine (cmadd_near hA.atConst hu hF.2.1 ((nearFFT_iff _ _ _).1 (ho trivial) j hj) ((nearFFT_iff _ _ _).1 (hx trivial) j hj)
          (y := ⟨c.1, c.2⟩) (Y := ⟨c.1, c.2⟩) (δy := 0) (by simp) (norm_evalAt_le l j _)
          (norm_evalAt_le l j _) le_rfl).1.trans (le_of_eq ?_)
        simp only [FOp.err]; ring
    exact ⟨_, by rw [FOp.run, hr, cmplxMulAddCmplxTo], h.1, fun v hv _ _ => h.2 v hv⟩
  | cmplxMulSub c =>
    have h := loop_near (l := l) (fun o x _ => (F.arith.atConst.accSub (-1) o.1 x.1 c.1 x.2 c.2,
        F.arith.atConst.accAdd (-1) o.2 x.1 c.2 x.2 c.1)) m out x x
      ((FOp.cmplxMulSub c : FOp w).err u δf o' x' y' δo δx δy) ((FOp.cmplxMulSub c : FOp w).val o' x' y') fun j hj => by
        simp only [FOp.val, FOp.over, id_eq]
        rw [ev_sub, ev_cmplx_mul]
        refine (cmadd_near hA.atConst hu hF.2.1 ((nearFFT_iff _ _ _).1 (ho trivial) j hj) ((nearFFT_iff _ _ _).1 (hx trivial) j hj)
          (y := ⟨c.1, c.2⟩) (Y := ⟨c.1, c.2⟩) (δy := 0) (by simp) (norm_evalAt_le l j _)
          (norm_evalAt_le l j _) le_rfl).2.trans (le_of_eq ?_)
        simp only [FOp.err]; ring
    exact ⟨_, by rw [FOp.run, hr, cmplxMulSubCmplxTo], h.1, fun v hv _ _ => h.2 v hv⟩
  | polyMul p =>
    obtain ⟨f1, f2⟩ := fwd_run (F := F) (e := e) m b.fp p (hf p rfl)
    have h := mul_run hF (fwdFFTTo F e p b.fp m) out x b.fp (δx := δx) (x' := x') (by rw [f2 _ hb2]; exact hx trivial) f1
    rw [mul_comm x'] at h
    exact ⟨_, by rw [FOp.run, polyMulFFTPolyTo, hr], h.1, fun v hv h1 _ => (h.2 v hv).trans (f2 v h1)⟩
  | polyMulAdd p =>
    obtain ⟨f1, f2⟩ := fwd_run (F := F) (e := e) m b.fp p (hf p rfl)
    have h := mulAdd_run hF (fwdFFTTo F e p b.fp m) out x b.fp (o' := o') (δo := δo) (δx := δx) (x' := x')
      (by rw [f2 _ hb1]; exact ho trivial) (by rw [f2 _ hb2]; exact hx trivial) f1
    rw [mul_comm x'] at h
    exact ⟨_, by rw [FOp.run, polyMulAddFFTPolyTo, hr], h.1, fun v hv h1 _ => (h.2 v hv).trans (f2 v h1)⟩
  | polyMulSub p =>
    obtain ⟨f1, f2⟩ := fwd_run (F := F) (e := e) m b.fp p (hf p rfl)
    have h := mulSub_run hF (fwdFFTTo F e p b.fp m) out x b.fp (o' := o') (δo := δo) (δx := δx) (x' := x')
      (by rw [f2 _ hb1]; exact ho trivial) (by rw [f2 _ hb2]; exact hx trivial) f1
    rw [mul_comm x'] at h
    exact ⟨_, by rw [FOp.run, polyMulSubFFTPolyTo, hr], h.1, fun v hv h1 _ => (h.2 v hv).trans (f2 v h1)⟩
  | fwdAdd p =>
    obtain ⟨f1, f2⟩ := fwd_run (F := F) (e := e) m b.fp p (hf p rfl)
    have h := add_run hF (fwdFFTTo F e p b.fp m) out b.fp out (y' := o') (δy := δo) f1 (by rw [f2 _ hb1]; exact ho trivial)
    rw [add_comm _ o', add_comm δf, add_comm (l1 _ + δf)] at h
    exact ⟨_, by rw [FOp.run, fwdFFTAddTo, hr], h.1, fun v hv h1 _ => (h.2 v hv).trans (f2 v h1)⟩
  | fwdSub p =>
    obtain ⟨f1, f2⟩ := fwd_run (F := F) (e := e) m b.fp p (hf p rfl)
    have h := sub_run hF (fwdFFTTo F e p b.fp m) out out b.fp (x' := o') (δx := δo) (by rw [f2 _ hb1]; exact ho trivial) f1
    exact ⟨_, by rw [FOp.run, fwdFFTSubTo, hr], h.1, fun v hv h1 _ => (h.2 v hv).trans (f2 v h1)⟩
  | permute d =>
    obtain ⟨m', e1, e2, e3⟩ := permute_run hr hl m out x d (hd d rfl) (hne trivial) (fun _ z => z) (fun _ z => z) (fun _ _ => rfl) δx
      (subst d x') (hx trivial) (fun _ _ _ h => h)
    exact ⟨m', e1, e2, fun v hv _ _ => e3 v hv⟩
  | permuteAdd d =>
    obtain ⟨m', e1, e2, e3⟩ := permute_run hr hl m out x d (hd d rfl) (hne trivial) (fun o z => F.arith.add o z) (caddFl F.arith)
      (fun _ _ => rfl) (δo + δx + u * (l1 o' + δo + (l1 x' + δx))) (o' + subst d x') (hx trivial) (fun j hj z h => by
        have h1 := (nearFFT_iff _ _ _).1 (ho trivial) j hj
        rw [ev_add]
        exact cadd_near hA hu h1 h (norm_le_of_near h1 (norm_evalAt_le l j _)) (norm_le_of_near h
          (norm_subst_le l j d x')))
    exact ⟨m', e1, e2, fun v hv _ _ => e3 v hv⟩
  | permuteSub d =>
    obtain ⟨m', e1, e2, e3⟩ := permute_run hr hl m out x d (hd d rfl) (hne trivial) (fun o z => F.arith.sub o z) (csubFl F.arith)
      (fun _ _ => rfl) (δo + δx + u * (l1 o' + δo + (l1 x' + δx))) (o' - subst d x') (hx trivial) (fun j hj z h => by
        have h1 := (nearFFT_iff _ _ _).1 (ho trivial) j hj
        rw [ev_sub]
        exact csub_near hA hu h1 h (norm_le_of_near h1 (norm_evalAt_le l j _)) (norm_le_of_near h
          (norm_subst_le l j d x')))
    exact ⟨m', e1, e2, fun v hv _ _ => e3 v hv⟩
  | permuteInPlace d =>
    obtain ⟨m', e1, e2, e3⟩ := permute_run hr hl m b.fpOut out d (hd d rfl) (Ne.symm hb3) (fun _ z => z) (fun _ z => z)
      (fun _ _ => rfl) δo (subst d o') (ho trivial) (fun _ _ _ h => h)
    refine ⟨setVec m' out (m' b.fpOut), ?_, ?_, fun v hv _ h2 => ?_⟩
    · rw [FOp.run, permuteFFTPolyInPlace, if_neg (hd d rfl), e1, Option.map_some]
    · rw [setVec, if_pos rfl]; exact e2
    · rw [setVec, if_neg hv]; exact e3 v h2

include hr hl in
/-- Without rounding, the operations are exact. -/
theorem C58_exact (hid : ∀ t, F.fl t = t) (o' x' y' : Poly (2 ^ (l + 4)) ℝ)
    (hf : ∀ p, op.poly = some p → ∀ old, IsFFT (fwdFFTFl F.arith e old p) (signedOf (2 ^ (l + 4)) p))
    (hd : ∀ d, op.exponent = some d → d % 2 ≠ 0) (hne : op.apart → out ≠ x)
    (hb : out ≠ b.fp ∧ x ≠ b.fp ∧ out ≠ b.fpOut)
    (ho : op.usesOut → IsFFT (m out) o') (hx : op.usesX → IsFFT (m x) x') (hy : op.usesY → IsFFT (m y) y') :
    ∃ m', op.run F e b out x y m = some m' ∧ IsFFT (m' out) (op.val o' x' y') ∧
      ∀ v, v ≠ out → v ≠ b.fp → v ≠ b.fpOut → m' v = m v := by
  have hF : RoundsTo F 0 := ⟨le_rfl, by norm_num, fun t => by rw [hid]; simp⟩
  obtain ⟨m', e1, e2, e3⟩ := C58_op hF hr hl op m out x y o' x' y' 0 0 0 0
    (fun p h old => (nearFFT_zero _ _).2 (hf p h old)) hd hne hb (fun h => (nearFFT_zero _ _).2 (ho h))
    (fun h => (nearFFT_zero _ _).2 (hx h)) (fun h => (nearFFT_zero _ _).2 (hy h))
  refine ⟨m', e1, (nearFFT_zero _ _).1 ?_, e3⟩
  have h0 : op.err 0 0 o' x' y' 0 0 0 = 0 := by cases op <;> simp [FOp.err]
  rwa [h0] at e2

/-- Permutations by an even exponent panic. -/
theorem C58_panic (d : ℤ) (h : op.exponent = some d) (hd : d % 2 = 0) : op.run F e b out x y m = none := by
  cases op <;> simp only [FOp.exponent, reduceCtorEq, Option.some.injEq] at h <;> subst h <;>
    simp [FOp.run, permuteTo, permuteFFTPolyInPlace, hd]

/-- On ciphertexts too. -/
theorem C58_glwe_panic (k : ℕ) (out x y : ℕ → ℕ) (d : ℤ) (h : op.exponent = some d) (hd : d % 2 = 0) :
    glweRun F e b op k out x y m = none := by
  unfold glweRun
  rw [List.range_succ_eq_map, List.foldlM_cons, C58_panic op m _ _ _ d h hd]
  rfl
end

/-- The vectors of ciphertexts of rank `k` lie outside the buffers, and no component of the output is a later component of an
argument or of the output.  The output may be one of the arguments. -/
structure Fft.Placed (b : FBuf) (k : ℕ) (out x y : ℕ → ℕ) : Prop where
  bufs : ∀ i ≤ k, (out i ≠ b.fp ∧ out i ≠ b.fpOut) ∧ (x i ≠ b.fp ∧ x i ≠ b.fpOut) ∧ (y i ≠ b.fp ∧ y i ≠ b.fpOut)
  later : ∀ i j, i < j → j ≤ k → out i ≠ out j ∧ out i ≠ x j ∧ out i ≠ y j

section
variable {F : Float64} {u : ℝ} (hF : RoundsTo F u) {l w : ℕ} {e : Eval ℝ} {b : FBuf}
  (hr : e.rank = 2 ^ (l + 4)) (hl : l + 3 ≤ 64) (op : FOp w) (m : Mem ℝ) (k : ℕ) (out x y : ℕ → ℕ)
  (o' x' y' : ℕ → Poly (2 ^ (l + 4)) ℝ) (δf : ℝ) (δo δx δy : ℕ → ℝ)

include hF hr hl in
/-- Every operation on FFT GLWE ciphertexts acts on every component, up to the stated errors. -/
theorem C58_glwe
    (hf : ∀ p, op.poly = some p → ∀ old, NearFFT δf (fwdFFTFl F.arith e old p) (signedOf (2 ^ (l + 4)) p))
    (hd : ∀ d, op.exponent = some d → d % 2 ≠ 0) (hne : op.apart → ∀ i ≤ k, out i ≠ x i) (hp : Placed b k out x y)
    (ho : op.usesOut → ∀ i ≤ k, NearFFT (δo i) (m (out i)) (o' i)) (hx : op.usesX → ∀ i ≤ k, NearFFT (δx i) (m (x i)) (x' i))
    (hy : op.usesY → ∀ i ≤ k, NearFFT (δy i) (m (y i)) (y' i)) :
    ∃ m', glweRun F e b op k out x y m = some m' ∧
      (∀ i ≤ k, NearFFT (op.err u δf (o' i) (x' i) (y' i) (δo i) (δx i) (δy i)) (m' (out i)) (op.val (o' i) (x' i) (y' i))) ∧
      ∀ v, (∀ i ≤ k, v ≠ out i) → v ≠ b.fp → v ≠ b.fpOut → m' v = m v := by
  have main : ∀ n ≤ k + 1, ∃ m', (List.range n).foldlM (fun m i => op.run F e b (out i) (x i) (y i) m) m = some m' ∧
      (∀ i < n, NearFFT (op.err u δf (o' i) (x' i) (y' i) (δo i) (δx i) (δy i)) (m' (out i)) (op.val (o' i) (x' i) (y' i))) ∧
      ∀ v, (∀ i < n, v ≠ out i) → v ≠ b.fp → v ≠ b.fpOut → m' v = m v := by
    intro n
    induction n with
    | zero => exact fun _ => ⟨m, rfl, fun i hi => absurd hi (by omega), fun _ _ _ _ => rfl⟩
    | succ n ih =>
      intro hn
      obtain ⟨m1, e1, e2, e3⟩ := ih (by omega)
      obtain ⟨bo, bx, by'⟩ := hp.bufs n (by omega)
      have ko := e3 (out n) (fun i hi => (hp.later i n hi (by omega)).1.symm) bo.1 bo.2
      have kx := e3 (x n) (fun i hi => (hp.later i n hi (by omega)).2.1.symm) bx.1 bx.2
      have ky := e3 (y n) (fun i hi => (hp.later i n hi (by omega)).2.2.symm) by'.1 by'.2
      obtain ⟨m2, f1, f2, f3⟩ := C58_op hF hr hl op m1 (out n) (x n) (y n) (o' n) (x' n) (y' n) δf (δo n) (δx n) (δy n) hf hd
        (fun h => hne h n (by omega)) ⟨bo.1, bx.1, bo.2⟩ (fun h => by rw [ko]; exact ho h n (by omega))
        (fun h => by rw [kx]; exact hx h n (by omega)) (fun h => by rw [ky]; exact hy h n (by omega))
      refine ⟨m2, ?_, ?_, ?_⟩
      · rw [List.range_succ, List.foldlM_append, e1]
        simp only [List.foldlM_cons, List.foldlM_nil, Option.bind_eq_bind, Option.bind_some, Option.pure_def, f1]
      · intro i hi
        rcases Nat.lt_succ_iff_lt_or_eq.1 hi with h | rfl
        · rw [f3 _ (hp.later i n h (by omega)).1 (hp.bufs i (by omega)).1.1 (hp.bufs i (by omega)).1.2]
          exact e2 i h
        · exact f2
      · intro v hv h1 h2
        rw [f3 v (hv n (by omega)) h1 h2]
        exact e3 v (fun i hi => hv i (by omega)) h1 h2
  obtain ⟨m', e1, e2, e3⟩ := main (k + 1) le_rfl
  exact ⟨m', e1, fun i hi => e2 i (by omega), fun v hv => e3 v fun i hi => hv i (by omega)⟩

include hF hr hl in
/-- `PolyMulFFTGLWETo` and its variants transform the polynomial once, into a buffer, and multiply every component by it. -/
theorem C58_polyMulGLWE (fpMul : ℕ) (p : ℕ → BitVec w) (hop : op = .mul ∨ op = .mulAdd ∨ op = .mulSub)
    (hf : ∀ old, NearFFT δf (fwdFFTFl F.arith e old p) (signedOf (2 ^ (l + 4)) p)) (hp : Placed b k out x fun _ => fpMul)
    (hfp : ∀ i ≤ k, out i ≠ fpMul ∧ x i ≠ fpMul)
    (ho : op.usesOut → ∀ i ≤ k, NearFFT (δo i) (m (out i)) (o' i)) (hx : ∀ i ≤ k, NearFFT (δx i) (m (x i)) (x' i)) :
    ∃ m', polyMulFFTGLWETo F e b op k fpMul out x p m = some m' ∧
      (∀ i ≤ k, NearFFT (op.err u δf (o' i) (x' i) (signedOf _ p) (δo i) (δx i) δf) (m' (out i))
        (op.val (o' i) (x' i) (signedOf _ p))) ∧
      ∀ v, (∀ i ≤ k, v ≠ out i) → v ≠ b.fp → v ≠ b.fpOut → v ≠ fpMul → m' v = m v := by
  obtain ⟨f1, f2⟩ := fwd_run (F := F) (e := e) m fpMul p hf
  have hop' : op.poly = none ∧ op.exponent = none ∧ ¬op.apart := by rcases hop with rfl | rfl | rfl <;> simp [FOp.poly, FOp.exponent, FOp.apart]
  obtain ⟨m', e1, e2, e3⟩ := C58_glwe hF hr hl op (fwdFFTTo F e p fpMul m) k out x (fun _ => fpMul) o' x' (fun _ => signedOf _ p) δf δo δx
    (fun _ => δf) (fun p h => by rw [hop'.1] at h; cases h) (fun d h => by rw [hop'.2.1] at h; cases h)
    (fun h => absurd h hop'.2.2) hp (fun h i hi => by rw [f2 _ (hfp i hi).1]; exact ho h i hi)
    (fun _ i hi => by rw [f2 _ (hfp i hi).2]; exact hx i hi) (fun _ _ _ => f1)
  exact ⟨m', e1, e2, fun v h1 h2 h3 h4 => (e3 v h1 h2 h3).trans (f2 v h4)⟩

/-- `FwdFFTGLWECiphertextTo` transforms every component. -/
theorem C58_fwdGLWE (ct : ℕ → ℕ → BitVec w)
    (hf : ∀ i ≤ k, ∀ old, NearFFT (δx i) (fwdFFTFl F.arith e old (ct i)) (signedOf (2 ^ (l + 4)) (ct i)))
    (hinj : ∀ i j, i < j → j ≤ k → out i ≠ out j) :
    (∀ i ≤ k, NearFFT (δx i) (fwdFFTGLWETo F e k out ct m (out i)) (signedOf (2 ^ (l + 4)) (ct i))) ∧
      ∀ v, (∀ i ≤ k, v ≠ out i) → fwdFFTGLWETo F e k out ct m v = m v := by
  have main : ∀ n ≤ k + 1,
      (∀ i < n, NearFFT (δx i) ((List.range n).foldl (fun m i => fwdFFTTo F e (ct i) (out i) m) m (out i))
        (signedOf (2 ^ (l + 4)) (ct i))) ∧
      ∀ v, (∀ i < n, v ≠ out i) → (List.range n).foldl (fun m i => fwdFFTTo F e (ct i) (out i) m) m v = m v := by
    intro n
    induction n with
    | zero => exact fun _ => ⟨fun i hi => absurd hi (by omega), fun _ _ => rfl⟩
    | succ n ih =>
      intro hn
      obtain ⟨e1, e2⟩ := ih (by omega)
      rw [List.range_succ, List.foldl_append, List.foldl_cons, List.foldl_nil]
      obtain ⟨f1, f2⟩ := fwd_run (F := F) (e := e) ((List.range n).foldl (fun m i => fwdFFTTo F e (ct i) (out i) m) m) (out n) (ct n)
        (hf n (by omega))
      refine ⟨fun i hi => ?_, fun v hv => (f2 v (hv n (by omega))).trans (e2 v fun i hi => hv i (by omega))⟩
      rcases Nat.lt_succ_iff_lt_or_eq.1 hi with h | rfl
      · rw [f2 _ (hinj i n h (by omega))]; exact e1 i h
      · exact f1
  obtain ⟨e1, e2⟩ := main (k + 1) le_rfl
  exact ⟨fun i hi => e1 i (by omega), fun v hv => e2 v fun i hi => hv i (by omega)⟩
end

section
variable {M : Machine} (hM : Ieee M) {l w : ℕ} {N : BitVec 64} (hN : N.toInt = 2 ^ (l + 4)) {e : Eval ℝ}
  (he : newEvaluatorFl M.arith M.cis N = some e)
include hM hN he

/-- The forward transform in double precision, for coefficients up to `B`. -/
theorem C58_fwd (old : ℕ → ℝ) (p : Poly (2 ^ (l + 4)) (BitVec w)) (B : ℕ) (hB : pabs p ≤ B) :
    NearFFT (fwdErr l B) (fwdFFTFl M.arith e old p.slice) (signedOf (2 ^ (l + 4)) p.slice) := by
  have h : signedOf (2 ^ (l + 4)) p.slice = p.signed := by
    funext i
    show ((p.slice i).toInt : ℝ) = _
    rw [slice_lt _ i.1 i.2]; rfl
  rw [h]
  exact fwd_near hM hN he old p B hB

/-- The inverse transform in double precision. -/
theorem C58_inv (hw : 0 < w) (hw64 : w ≤ 64) (v : FPoly) (Z : Poly (2 ^ (l + 4)) ℤ) (S δ : ℝ) (hS : 0 < S)
    (h1 : l1 (toR _ Z) ≤ S) (h : NearFFT δ v (toR _ Z)) :
    ∃ err, ((pabs err : ℕ) : ℝ) ≤ invErr l S δ + 3 / 2 ∧ invF M e w (2 ^ (l + 4)) v = ofIntP w Z + err :=
  inv_words hM hN he hw hw64 v Z S δ hS h1 h

/-- An operation with integer constants, on transforms of polynomials of words, and the way back: the operation on polynomials of
words, up to the stated error. -/
theorem C58_words (hw : 0 < w) (hw64 : w ≤ 64) (hl : l + 3 ≤ 64) (b : FBuf) (op : FOp w) (m : Mem ℝ) (out x y : ℕ)
    (o' x' y' : Poly (2 ^ (l + 4)) (BitVec w)) (δf δo δx δy S : ℝ) (hS : 0 < S)
    (h1 : l1 (op.val o'.signed x'.signed y'.signed) ≤ S) (hi : op.integral)
    (hf : ∀ p, op.poly = some p → ∀ old, NearFFT δf (fwdFFTFl M.arith e old p) (signedOf (2 ^ (l + 4)) p))
    (hd : ∀ d, op.exponent = some d → d % 2 ≠ 0) (hne : op.apart → out ≠ x)
    (hb : out ≠ b.fp ∧ x ≠ b.fp ∧ out ≠ b.fpOut)
    (ho : op.usesOut → NearFFT δo (m out) o'.signed) (hx : op.usesX → NearFFT δx (m x) x'.signed)
    (hy : op.usesY → NearFFT δy (m y) y'.signed) :
    ∃ m' err, op.run M.toFloat64 e b out x y m = some m' ∧ invF M e w (2 ^ (l + 4)) (m' out) = op.wval o' x' y' + err ∧
      ((pabs err : ℕ) : ℝ) ≤ invErr l S (op.err (2⁻¹ ^ 53) δf o'.signed x'.signed y'.signed δo δx δy) + 3 / 2 := by
  have hF : RoundsTo M.toFloat64 (2⁻¹ ^ 53) := ⟨by positivity, by norm_num, hM.toAccurate.fl⟩
  obtain ⟨m', e1, e2, -⟩ := C58_op hF (rank_of hM hN he) hl op m out x y o'.signed x'.signed y'.signed δf δo δx δy hf hd hne hb ho hx hy
  rw [signed_eq, signed_eq, signed_eq, val_int op hi] at h1
  have e2' := e2
  rw [signed_eq, signed_eq, signed_eq, val_int op hi] at e2'
  obtain ⟨err, f1, f2⟩ := C58_inv hM hN he hw hw64 (m' out) _ S _ hS h1 e2'
  refine ⟨m', err, e1, ?_, ?_⟩
  · rw [f2, wval_int]
  · rw [signed_eq, signed_eq, signed_eq]; exact f1

/-- `FwdFFTGLWECiphertextTo` and then `InvFFTGLWECiphertextTo` give the ciphertext back, up to the stated error in every coefficient. -/
theorem C58_roundtrip (hw : 0 < w) (hw64 : w ≤ 64) (k : ℕ) (out : ℕ → ℕ) (hinj : ∀ i j, i < j → j ≤ k → out i ≠ out j)
    (ct : ℕ → Poly (2 ^ (l + 4)) (BitVec w)) (B : ℕ) (hB : 0 < B) (hct : ∀ i ≤ k, pabs (ct i) ≤ B) (m : Mem ℝ) :
    ∃ err : ℕ → Poly (2 ^ (l + 4)) (BitVec w), (∀ i ≤ k, ((pabs (err i) : ℕ) : ℝ) ≤ invErr l (2 ^ (l + 4) * B) (fwdErr l B) + 3 / 2) ∧
      invFFTGLWETo e M w (2 ^ (l + 4)) k out (fwdFFTGLWETo M.toFloat64 e k out (fun i => (ct i).slice) m) =
        (List.range (k + 1)).map fun i => ct i + err i := by
  obtain ⟨e1, -⟩ := C58_fwdGLWE (F := M.toFloat64) (e := e) (l := l) m k out (fun _ => fwdErr l B) (fun i => (ct i).slice)
    (fun i hi old => C58_fwd hM hN he old (ct i) B (hct i hi)) hinj
  have h : ∀ i : ℕ, ∃ err : Poly (2 ^ (l + 4)) (BitVec w), i ≤ k → ((pabs err : ℕ) : ℝ) ≤ invErr l (2 ^ (l + 4) * B) (fwdErr l B) + 3 / 2 ∧
      invF M e w (2 ^ (l + 4)) (fwdFFTGLWETo M.toFloat64 e k out (fun i => (ct i).slice) m (out i)) = ct i + err := by
    intro i
    by_cases hi : i ≤ k
    · have h := e1 i hi
      have hs : signedOf (2 ^ (l + 4)) (ct i).slice = toR _ (Bfv.lift (ct i)) := by
        funext t
        show (((ct i).slice t).toInt : ℝ) = _
        rw [slice_lt _ t.1 t.2]; rfl
      rw [hs] at h
      have hl1 : l1 (toR (2 ^ (l + 4)) (Bfv.lift (ct i))) ≤ 2 ^ (l + 4) * B := by
        unfold l1
        refine (Finset.sum_le_sum (g := fun _ => (B : ℝ)) fun t _ => ?_).trans ?_
        · rw [toR_apply, ← Int.cast_abs, Int.abs_eq_natAbs]
          exact_mod_cast (pabs_le_iff (ct i) B).1 (hct i hi) t
        · rw [Finset.sum_const, Finset.card_univ, Fintype.card_fin, nsmul_eq_mul]; push_cast; exact le_rfl
      obtain ⟨err, f1, f2⟩ := C58_inv hM hN he hw hw64 _ _ _ _ (by positivity) hl1 h
      rw [ofIntP_lift] at f2
      exact ⟨err, fun _ => ⟨f1, f2⟩⟩
    · exact ⟨0, fun h => absurd h hi⟩
  choose err h using h
  refine ⟨err, fun i hi => (h i hi).1, ?_⟩
  unfold invFFTGLWETo
  refine List.map_congr_left fun i hi => (h i ?_).2
  have := List.mem_range.1 hi
  omega
end

/-! ## Cases -/

theorem exErr : invErr 7 (2 ^ (7 + 4) * (2 ^ 31 : ℕ)) (fwdErr 7 (2 ^ 31 : ℕ)) + 3 / 2 < 3 := by
  have h2 : √2 ^ 2 = (2 : ℝ) := Real.sq_sqrt (by norm_num)
  have h3 : √2 ≤ (3 / 2 : ℝ) := Real.sqrt_le_iff.2 ⟨by norm_num, by norm_num⟩
  have h10 : √2 ^ (7 + 3) = (32 : ℝ) := by rw [show 7 + 3 = 2 * 5 by norm_num, pow_mul, h2]; norm_num
  have h11 : √2 ^ (7 + 4) = (32 : ℝ) * √2 := by rw [show 7 + 4 = 2 * 5 + 1 by norm_num, pow_succ, pow_mul, h2]; norm_num
  have hf : fwdErr 7 (2 ^ 31 : ℕ) ≤ 3 / 5 := by
    unfold fwdErr Phi
    rw [h10, h11]
    have : (0 : ℝ) ≤ (1 + 2 * 2⁻¹ ^ 47) ^ (7 + 3) * (1 + 2⁻¹ ^ 53) - 1 := by norm_num
    calc _ ≤ (32 : ℝ) * (((1 + 2 * 2⁻¹ ^ 47) ^ (7 + 3) * (1 + 2⁻¹ ^ 53) - 1) * (32 * (3 / 2) * (2 ^ 31 : ℕ))) := by gcongr
      _ ≤ 3 / 5 := by norm_num
  unfold invErr
  calc _ ≤ (1 + (2⁻¹ : ℝ) ^ 53) * (1 + 2⁻¹ ^ 47) ^ (7 + 3) * (3 / 5) +
        ((1 + 2⁻¹ ^ 53) * (1 + 2⁻¹ ^ 47) ^ (7 + 3) - 1) * (2 ^ (7 + 4) * (2 ^ 31 : ℕ)) + 3 / 2 := by gcongr
    _ < 3 := by norm_num

/-- Rank 2048, 32-bit words: any ciphertext of rank 1 comes back from the Fourier domain with an error of at most 2. -/
example (ct : ℕ → Poly (2 ^ (7 + 4)) (BitVec 32)) (m : Mem ℝ) :
    ∃ e, newEvaluatorFl (exMachine .none).arith (exMachine .none).cis 2048#64 = some e ∧
      ∃ err : ℕ → Poly (2 ^ (7 + 4)) (BitVec 32), (∀ i ≤ 1, pabs (err i) ≤ 2) ∧
        invFFTGLWETo e (exMachine .none) 32 (2 ^ (7 + 4)) 1 (fun i => 10 + i)
          (fwdFFTGLWETo (exMachine .none).toFloat64 e 1 (fun i => 10 + i) (fun i => (ct i).slice) m) =
          (List.range 2).map fun i => ct i + err i := by
  have hN : (2048#64).toInt = 2 ^ (7 + 4) := by decide
  obtain ⟨e, he, -⟩ := C56_newEvaluator (exMachine_ok .none).toAccurate hN
  obtain ⟨err, h1, h2⟩ := C58_roundtrip (exMachine_ok .none) hN he (by norm_num) (by norm_num) 1 (fun i => 10 + i)
    (fun i j h _ => by omega) ct (2 ^ 31) (by norm_num)
    (fun i _ => (pabs_le_iff _ _).2 fun t => by have := wabs_le_half (ct i t); omega) m
  refine ⟨e, he, err, fun i hi => ?_, h2⟩
  have := (h1 i hi).trans_lt exErr
  have : pabs (err i) < 3 := by exact_mod_cast this
  omega

/-- Ciphertexts of rank 2 added in place: the output is the first argument, and the buffers are elsewhere. -/
example : Placed ⟨0, 1⟩ 2 (fun i => 10 + i) (fun i => 10 + i) (fun i => 20 + i) where
  bufs := fun i _ => by dsimp only; omega
  later := fun i j h _ => by omega

/-- `X -> X^5` in place, without rounding. -/
example (m : Mem ℝ) (e : Eval ℝ) (hr : e.rank = 2 ^ (6 + 4)) (p : Poly (2 ^ (6 + 4)) ℝ) (h : IsFFT (m 7) p) :
    ∃ m', (FOp.permuteInPlace 5 : FOp 64).run noRounding e ⟨0, 1⟩ 7 7 7 m = some m' ∧ IsFFT (m' 7) (subst 5 p) := by
  obtain ⟨m', e1, e2, -⟩ := C58_exact (F := noRounding) (b := ⟨0, 1⟩) hr (by norm_num) (.permuteInPlace 5 : FOp 64) m 7 7 7 (fun _ => rfl) p p p
    (fun p h => by cases h) (fun d h => by cases h; decide) (fun h => h.elim) ⟨by decide, by decide, by decide⟩ (fun _ => h)
    (fun _ => h) (fun _ => h)
  exact ⟨m', e1, e2⟩

end Tfhe
