import Verif.Model.Circuit
import Verif.Props.C37
import Verif.Props.C40

/-!
# C38: circuit bootstrapping yields a GGSW ciphertext
-/
namespace Tfhe
open Bfv Finset
variable {w N n : ℕ} [NeZero N]

local notation "Pl" => Poly N (BitVec w)

/-! ### The trace -/

theorem at_keepMul (t : ℕ) (ht : t ∣ N) (p : Pl) (z : ℤ) :
    Poly.at' (keepMul t p) z = if (t : ℤ) ∣ z then Poly.at' p z else 0 := by
  have hF := Poly.at_mk (N := N) (fun z : ℤ => if (t : ℤ) ∣ z then Poly.at' p z else 0) (fun z => by
    have h : (t : ℤ) ∣ z + N ↔ (t : ℤ) ∣ z :=
      (Int.dvd_add_left (Int.natCast_dvd_natCast.2 ht))
    simp only [h, Poly.at_add_N]
    split <;> simp) z
  rw [← hF]
  congr 1
  funext i
  show (if t ∣ (i : ℕ) then p i else 0) = _
  simp only [Int.natCast_dvd_natCast, Poly.at_coe]

/-- Step `j` of the trace doubles the coefficients at multiples of `2^(j+1)` and clears those at the other multiples
of `2^j`. -/
theorem trace_exact (logN : ℕ) (hN : N = 2 ^ logN) (j : ℕ) (hj : j < logN) (p : Pl) :
    keepMul (2 ^ j) p + Poly.subst ((2 : ℤ) ^ (logN - j) + 1) (keepMul (2 ^ j) p)
      = keepMul (2 ^ (j + 1)) p + keepMul (2 ^ (j + 1)) p := by
  set d : ℤ := (2 : ℤ) ^ (logN - j) + 1 with hd0
  have hd : d % 2 = 1 := by
    rw [hd0, show logN - j = (logN - j - 1) + 1 by omega, pow_succ]; omega
  have hcop := coprime_of_odd logN hN d hd
  have hN' : N = 2 ^ j * 2 ^ (logN - j) := by rw [hN, ← pow_add]; congr 1; omega
  have htN : 2 ^ j ∣ N := ⟨_, hN'⟩
  have ht : 2 ^ (j + 1) = 2 ^ j * 2 := pow_succ ..
  funext i
  show keepMul (2 ^ j) p i + Poly.subst d (keepMul (2 ^ j) p) i
    = (if 2 ^ (j + 1) ∣ (i : ℕ) then p i else 0) + (if 2 ^ (j + 1) ∣ (i : ℕ) then p i else 0)
  by_cases h : 2 ^ j ∣ (i : ℕ)
  · have hk : keepMul (2 ^ j) p i = p i := if_pos h
    obtain ⟨a, ha⟩ := h
    have h1 : Poly.subst d (keepMul (2 ^ j) p) i = if a % 2 = 0 then p i else -p i := by
      have e1 := Poly.at_subst d hd hcop (keepMul (2 ^ j) p) (i : ℤ)
      have e2 : d * ((i : ℕ) : ℤ) = (i : ℕ) + a * N := by
        have h2 : ((i : ℕ) : ℤ) = 2 ^ j * a := by exact_mod_cast ha
        have h3 : (N : ℤ) = 2 ^ j * 2 ^ (logN - j) := by exact_mod_cast hN'
        rw [h2, h3, hd0]; ring
      rw [e2, at_add_mul_N, Poly.at_coe, Poly.at_coe, hk] at e1
      by_cases h : a % 2 = 0
      · rw [if_pos h] at e1 ⊢; exact e1
      · rw [if_neg h] at e1 ⊢; rw [← e1, neg_neg]
    rw [hk, h1]
    have h4 : 2 ^ (j + 1) ∣ (i : ℕ) ↔ a % 2 = 0 := by
      rw [ha, ht, Nat.mul_dvd_mul_iff_left (by positivity)]
      omega
    simp only [h4]
    by_cases h : a % 2 = 0
    · simp only [if_pos h]
    · simp only [if_neg h]; rw [add_neg_cancel, add_zero]
  · have hk : keepMul (2 ^ j) p i = 0 := if_neg h
    obtain ⟨a, b, hab⟩ := hcop
    have h1 : Poly.subst d (keepMul (2 ^ j) p) i = Poly.at' (keepMul (2 ^ j) p) (a * i) := by
      rw [← Poly.at_subst d hd (coprime_of_odd logN hN d hd)]
      refine (Poly.at_coe (Poly.subst d (keepMul (2 ^ j) p)) i).symm.trans ?_
      have : (i : ℤ) = d * (a * i) + 2 * N * (b * i) := by linear_combination (-(i : ℤ)) * hab
      conv_lhs => rw [this]
      exact Poly.at_add_two_N_mul _ _ _
    have h2 : ¬ ((2 ^ j : ℕ) : ℤ) ∣ a * i := by
      intro h3
      apply h
      rw [← Int.natCast_dvd_natCast]
      have h4 : ((i : ℕ) : ℤ) = d * (a * i) + N * (2 * b * i) := by linear_combination (-(i : ℤ)) * hab
      rw [h4]
      exact dvd_add (Dvd.dvd.mul_left h3 _) (Dvd.dvd.mul_right (Int.natCast_dvd_natCast.2 htN) _)
    rw [hk, h1, at_keepMul _ htN, if_neg h2, if_neg (fun h' => h ((Dvd.intro _ ht.symm).trans h')), add_zero]

theorem traceDegree (logN j : ℕ) (h62 : logN ≤ 62) (hj : j < logN) :
    ((1#64 <<< (logN - j)) + 1#64).toInt = (2 : ℤ) ^ (logN - j) + 1 := by
  have := (packDegree (logN - j - 1) (by omega)).1
  rwa [show logN - j - 1 + 1 = logN - j by omega] at this

/-- The degrees of the trace are those of `GenGaloisKeysForPack`. -/
theorem traceDegree_mem (logN j : ℕ) (hj : j < logN) : (1#64 <<< (logN - j)) + 1#64 ∈ packAuts logN :=
  List.mem_map.2 ⟨j, List.mem_range.2 hj, rfl⟩

theorem pabs_two (p : Pl) : pabs (p + p) ≤ 2 * pabs p := by
  have := pabs_add_le p p; omega

/-- The trace loop, for permutations that are right up to `K`. -/
theorem trace_loop (logN : ℕ) (hN : N = 2 ^ logN) (h62 : logN ≤ 62) (gk : GalKeys w N n)
    (s : Fin (n + 1) → Pl) (K : ℕ) (out pk pb : ℕ) (hpk : out ≠ pk)
    (hpb : pb ≠ out) (err : ℕ → Fin (n + 1 + 1) → Pl)
    (hP : ∀ i < logN, ∀ m : Mem Pl, ∃ m', permuteTo gk pk out pb ((1#64 <<< (logN - i)) + 1#64) (err i) m = some m' ∧
      pabs (phase s (ctOf (n + 1) m' pk)
        - Poly.subst ((1#64 <<< (logN - i)) + 1#64).toInt (phase s (ctOf (n + 1) m out))) ≤ K ∧
      (∀ v i, v ≠ pk → v ≠ pb → m' v i = m v i))
    (m : Mem Pl) (j : ℕ) (hj : j ≤ logN) :
    ∃ m', (List.range j).foldlM (Circuit.traceStep gk logN out pk pb err) m = some m' ∧
      pabs (phase s (ctOf (n + 1) m' out) - (2 ^ j) • keepMul (2 ^ j) (phase s (ctOf (n + 1) m out)))
        ≤ (2 ^ j - 1) * K ∧
      (∀ v i, v ≠ out → v ≠ pk → v ≠ pb → m' v i = m v i) := by
  induction j with
  | zero =>
    refine ⟨m, rfl, ?_, fun _ _ _ _ _ => rfl⟩
    rw [pow_zero, one_smul, keepMul_one, sub_self]
    exact (polyNorm N w).zero.le.trans (Nat.zero_le _)
  | succ j ih =>
    obtain ⟨m1, e1, b1, f1⟩ := ih (by omega)
    obtain ⟨m2, e3, b3, f3⟩ := hP j (by omega) m1
    obtain ⟨e4, f4⟩ := C07_add (n + 1) out out pk m2
    refine ⟨addGLWETo (n + 1) out out pk m2, ?_, ?_, ?_⟩
    · rw [List.range_succ, List.foldlM_append, e1]
      show (List.foldlM (Circuit.traceStep gk logN out pk pb err) m1 [j]) = _
      rw [List.foldlM_cons, Circuit.traceStep, e3]
      rfl
    · rw [e4 s]
      beta_reduce
      have ho : ctOf (n + 1) m2 out = ctOf (n + 1) m1 out := by
        funext i; exact f3 out i hpk hpb.symm
      rw [traceDegree logN j h62 (by omega)] at b3
      have hd : ((2 : ℤ) ^ (logN - j) + 1) % 2 = 1 := by
        rw [show logN - j = (logN - j - 1) + 1 by omega, pow_succ]; omega
      rw [ho]
      generalize phase s (ctOf (n + 1) m2 pk) = ψ at *
      generalize phase s (ctOf (n + 1) m1 out) = φ at *
      generalize phase s (ctOf (n + 1) m out) = φ0 at *
      set σ : Pl →+* Pl := Poly.substHom N (BitVec w) ((2 : ℤ) ^ (logN - j) + 1) hd with hσ
      have hσ' : ∀ x, Poly.subst ((2 : ℤ) ^ (logN - j) + 1) x = σ x := fun _ => rfl
      have kt := trace_exact logN hN j (by omega) φ0
      rw [hσ'] at kt b3
      have k1 : φ + ψ - (2 ^ (j + 1)) • keepMul (2 ^ (j + 1)) φ0
          = (φ - (2 ^ j) • keepMul (2 ^ j) φ0) + σ (φ - (2 ^ j) • keepMul (2 ^ j) φ0) + (ψ - σ φ) := by
        have k2 : (2 ^ (j + 1)) • keepMul (2 ^ (j + 1)) φ0
            = (2 ^ j) • (keepMul (2 ^ (j + 1)) φ0 + keepMul (2 ^ (j + 1)) φ0) := by
          rw [pow_succ, mul_smul, two_smul]
        rw [k2, ← kt, map_sub, map_nsmul, smul_add]
        abel
      rw [k1]
      have k3 : pabs (σ (φ - (2 ^ j) • keepMul (2 ^ j) φ0)) ≤ pabs (φ - (2 ^ j) • keepMul (2 ^ j) φ0) :=
        pabs_subst_le logN hN _ hd _
      have k4 := pabs_add_le ((φ - (2 ^ j) • keepMul (2 ^ j) φ0) + σ (φ - (2 ^ j) • keepMul (2 ^ j) φ0)) (ψ - σ φ)
      have k5 := pabs_add_le (φ - (2 ^ j) • keepMul (2 ^ j) φ0) (σ (φ - (2 ^ j) • keepMul (2 ^ j) φ0))
      have k6 : (2 ^ (j + 1) - 1) * K = (2 ^ j - 1) * K + (2 ^ j - 1) * K + K := by
        have : 0 < 2 ^ j := by positivity
        rw [← add_mul, ← Nat.succ_mul]
        congr 1; rw [pow_succ]; omega
      omega
    · intro v i h1 h2 h3
      rw [f4 v i (Or.inl h1), f3 v i h2 h3, f1 v i h1 h2 h3]

/-! ### The division -/

theorem div_mul_back (b : ℕ) (hb : b < w) (x : BitVec w) : ∃ r : BitVec w, wabs r ≤ 2 ^ b / 2 ∧
    (2 ^ b) • divRoundBits x b = x + r := by
  have hx := x.isLt
  have hdiv := Nat.div_add_mod (x.toNat + 2 ^ b / 2) (2 ^ b)
  have hlt := Nat.mod_lt (x.toNat + 2 ^ b / 2) (show 2 ^ b > 0 by positivity)
  set q := (x.toNat + 2 ^ b / 2) / 2 ^ b with hq
  set r := (x.toNat + 2 ^ b / 2) % 2 ^ b with hr
  refine ⟨BitVec.ofInt w ((2 ^ b / 2 : ℕ) - r : ℤ), ?_, ?_⟩
  · refine (wabs_ofInt_le _).trans ?_
    omega
  · have h0 : divRoundBits x b = BitVec.ofInt w (q : ℤ) := by
      apply BitVec.eq_of_toNat_eq
      rw [toNat_divRoundBits x b hb, BitVec.ofInt_natCast, BitVec.toNat_ofNat, ← hq, Nat.mod_eq_of_lt]
      have := (divRoundBits x b).isLt
      rwa [toNat_divRoundBits x b hb] at this
    have hx' : x = BitVec.ofInt w (x.toNat : ℤ) := by rw [BitVec.ofInt_natCast, BitVec.ofNat_toNat, BitVec.setWidth_eq]
    have h2 : ((2 ^ b : ℕ) : BitVec w) = BitVec.ofInt w ((2 ^ b : ℕ) : ℤ) := by
      rw [BitVec.ofInt_natCast]; rfl
    conv_rhs => rw [hx', ← BitVec.ofInt_add]
    rw [nsmul_eq_mul, h0, h2, ← BitVec.ofInt_mul]
    congr 1
    omega

/-- Dividing a ciphertext by `2^b`: `2^b` times the new phase is the old phase plus a rounding error. -/
theorem divide_phase (b : ℕ) (hb : b < w) (s : Fin (n + 1) → Pl) (S : ℕ) (hS : ∀ i x, pabs (x * s i) ≤ S * pabs x) (rot : ℕ)
    (m : Mem Pl) : ∃ r : Pl, pabs r ≤ 2 ^ b / 2 * (1 + (n + 1) * S) ∧
      (2 ^ b) • phase s (ctOf (n + 1) (Circuit.divide (n + 1) b rot m) rot) = phase s (ctOf (n + 1) m rot) + r ∧
      (∀ v i, v ≠ rot → Circuit.divide (n + 1) b rot m v i = m v i) := by
  obtain ⟨h1, h2⟩ := mapLoopI_whole (fun _ o _ _ => fun l => divRoundBits (o l) b : ℕ → Pl → Pl → Pl → Pl) (n + 1) rot rot rot m
  choose c hc hc' using div_mul_back (w := w) b hb
  let bp : Fin (n + 1 + 1) → Pl := fun i l => c (ctOf (n + 1) m rot i l)
  have hbp : ∀ i, pabs (bp i) ≤ 2 ^ b / 2 := by
    intro i
    rw [pabs_le_iff]
    intro l
    exact hc _
  refine ⟨phase s bp, ?_, ?_, fun v i hv => h2 v i (Or.inl hv)⟩
  · have := (polyNorm N w).phase_le s bp (2 ^ b / 2) S hbp hS
    exact this
  · rw [← phase_add]
    have h3 : ∀ (t : ℕ) (a : Fin (n + 1 + 1) → Pl), t • phase s a = phase s (fun i => t • a i) := by
      intro t a
      simp only [phase, nsmul_eq_mul, mul_add, Finset.mul_sum, mul_assoc]
    rw [h3]
    congr 1
    rw [show ctOf (n + 1) (Circuit.divide (n + 1) b rot m) rot = _ from h1]
    funext i l
    exact hc' _

/-! ### Scheme switching -/

/-- The buffers of the bootstrapper do not overlap.  xtfhe/circuit_bootstrap.go:87-98. -/
structure CbLayout (row : ℕ → ℕ → ℕ) (rot pk pb : ℕ) : Prop where
  inj : ∀ i j i' j', row i j = row i' j' → i = i' ∧ j = j'
  rowrot : ∀ i j, row i j ≠ rot
  rowpk : ∀ i j, row i j ≠ pk
  rowpb : ∀ i j, row i j ≠ pb
  rotpk : rot ≠ pk
  rotpb : rot ≠ pb

/-- A loop that overwrites different vectors. -/
theorem writeRows_spec {P : Type} (k : ℕ) (a : ℕ → ℕ) (ha : ∀ i i', a i = a i' → i = i') (f : ℕ → ℕ → P) (c : ℕ) (m : Mem P) :
    (∀ i, i < c → ctOf k ((List.range c).foldl (fun m i =>
        mapLoopI (fun l _ _ _ => f i l) (a i) (a i) (a i) (List.range (k + 1)) m) m) (a i) = fun t : Fin (k + 1) => f i t) ∧
    ∀ v t, (∀ i, i < c → v ≠ a i) → (List.range c).foldl (fun m i =>
        mapLoopI (fun l _ _ _ => f i l) (a i) (a i) (a i) (List.range (k + 1)) m) m v t = m v t := by
  induction c with
  | zero => exact ⟨fun i hi => absurd hi (Nat.not_lt_zero _), fun _ _ _ => rfl⟩
  | succ c ih =>
    obtain ⟨h1, h2⟩ := mapLoopI_whole (fun l _ _ _ => f c l) k (a c) (a c) (a c) ((List.range c).foldl (fun m i =>
        mapLoopI (fun l _ _ _ => f i l) (a i) (a i) (a i) (List.range (k + 1)) m) m)
    rw [List.range_succ (n := c), List.foldl_append]
    refine ⟨fun i hi => ?_, fun v t hv => ?_⟩
    · by_cases hic : i = c
      · subst hic; exact h1
      · rw [← ih.1 i (by omega)]
        funext t
        exact h2 _ _ (Or.inl fun h => hic (ha _ _ h))
    · rw [← ih.2 v t fun i hi => hv i (by omega)]
      exact h2 _ _ (Or.inl (hv c (by omega)))

/-- Scheme switching multiplies the phase of row 0 by every component of the key. -/
theorem schemeSwitch_spec (g : GadgetParams w) (hg : g.Valid) (s : Fin (n + 1) → Pl)
    (ssk : ℕ → Fin (n + 1 + 1) → ℕ → Fin (n + 1 + 1) → Pl) (e : Fin (n + 1) → Fin (n + 1 + 1) → ℕ → Pl)
    (hk : ∀ i : Fin (n + 1), IsGSW (polyGadget N g) s (s i) (ssk i) (e i)) (row : ℕ → ℕ → ℕ) (j : ℕ)
    (hrow : ∀ i j i' j', row i j = row i' j' → i = i' ∧ j = j') (err : ℕ → Fin (n + 1 + 1) → Pl) (m : Mem Pl) :
    (∀ i : Fin (n + 1), phase s (ctOf (n + 1) (Circuit.schemeSwitch g ssk row j err m) (row (i + 1) j))
      = s i * phase s (ctOf (n + 1) m (row 0 j)) + extNoise (polyGadget N g) s (s i) (e i) (ctOf (n + 1) m (row 0 j)) (err i)) ∧
    ∀ v t, (∀ i, v ≠ row (i + 1) j) → Circuit.schemeSwitch g ssk row j err m v t = m v t := by
  obtain ⟨h1, h2⟩ := writeRows_spec (n + 1) (fun i => row (i + 1) j)
    (fun i i' h => by have := (hrow _ _ _ _ h).1; omega)
    (fun i => ext0 fun t => extProd g.level (ssk i) (fun i : Fin (n + 1 + 1) => (polyGadget N g).dec (m (row 0 j) i)) t + err i t)
    (n + 1) m
  refine ⟨fun i => ?_, fun v t hv => h2 v t fun i _ => hv i⟩
  have h3 : ctOf (n + 1) (Circuit.schemeSwitch g ssk row j err m) (row (i + 1) j) = _ := h1 i i.2
  rw [h3]
  refine Eq.trans ?_ (phase_extProd (polyGadget N g) hg.level_pos s (s i) (ssk i) (e i) (hk i) (ctOf (n + 1) m (row 0 j)) (err i))
  congr 1
  funext t
  exact ext0_coe _ t

/-- One level: row 0 gets `N` times the coefficient `jj` of the divided ciphertext, the other rows its products with
the key; other levels keep their values. -/
theorem level_spec (ev : Circuit.Eval w N n) (hN : N = 2 ^ ev.logN) (h62 : ev.logN ≤ 62) (hg : ev.gss.Valid)
    (s : Fin (n + 1) → Pl) (K Ess : ℕ) (err : Circuit.Errs w N n) (row : ℕ → ℕ → ℕ) (rot pk pb : ℕ) (hl : CbLayout row rot pk pb)
    (start jj : ℕ) (hjj : jj < N)
    (hP : ∀ i < ev.logN, ∀ m : Mem Pl, ∃ m', permuteTo ev.gk pk (row 0 (start + jj)) pb ((1#64 <<< (ev.logN - i)) + 1#64)
        (err.tr (start + jj) i) m = some m' ∧
      pabs (phase s (ctOf (n + 1) m' pk)
        - Poly.subst ((1#64 <<< (ev.logN - i)) + 1#64).toInt (phase s (ctOf (n + 1) m (row 0 (start + jj))))) ≤ K ∧
      (∀ v i, v ≠ pk → v ≠ pb → m' v i = m v i))
    (e : Fin (n + 1) → Fin (n + 1 + 1) → ℕ → Pl)
    (hk : ∀ i : Fin (n + 1), IsGSW (polyGadget N ev.gss) s (s i) (ev.ssk i) (e i))
    (hE : ∀ (i : Fin (n + 1)) (c : Fin (n + 1 + 1) → Pl),
      pabs (extNoise (polyGadget N ev.gss) s (s i) (e i) c (err.ss (start + jj) i)) ≤ Ess)
    (m : Mem Pl) :
    ∃ m', Circuit.level ev err row rot pk pb start m jj = some m' ∧
      pabs (phase s (ctOf (n + 1) m' (row 0 (start + jj)))
        - N • Poly.C N (phase s (ctOf (n + 1) m rot) ⟨jj, hjj⟩)) ≤ (N - 1) * K ∧
      (∀ i : Fin (n + 1), pabs (phase s (ctOf (n + 1) m' (row (i + 1) (start + jj)))
        - s i * phase s (ctOf (n + 1) m' (row 0 (start + jj)))) ≤ Ess) ∧
      (∀ v t, (∀ i, v ≠ row i (start + jj)) → v ≠ pk → v ≠ pb → m' v t = m v t) := by
  obtain ⟨m1, e1, p1, f1⟩ := (C07_monomial (n + 1) (row 0 (start + jj)) rot (hl.rowrot _ _)
    (Poly.mono N (BitVec w) (-(jj : ℤ))) m).1
  obtain ⟨m2, e2, b2, f2⟩ := trace_loop ev.logN hN h62 ev.gk s K (row 0 (start + jj)) pk pb (hl.rowpk _ _) (hl.rowpb _ _).symm
    (err.tr (start + jj)) hP m1 ev.logN le_rfl
  obtain ⟨g3, f3⟩ := schemeSwitch_spec ev.gss hg s ev.ssk e hk row (start + jj) hl.inj (err.ss (start + jj)) m2
  have h0 : ctOf (n + 1) (Circuit.schemeSwitch ev.gss ev.ssk row (start + jj) (err.ss (start + jj)) m2) (row 0 (start + jj))
      = ctOf (n + 1) m2 (row 0 (start + jj)) := by
    funext t
    exact f3 _ _ fun i h => by have := (hl.inj _ _ _ _ h).1; omega
  refine ⟨Circuit.schemeSwitch ev.gss ev.ssk row (start + jj) (err.ss (start + jj)) m2, ?_, ?_, fun i => ?_,
    fun v t h1 h2 h3 => ?_⟩
  · unfold Circuit.level
    show (exactMapGLWETo _ _ _ _ m).bind _ = _
    rw [e1, Option.bind_some, Circuit.trace, e2]
    rfl
  · rw [h0]
    rw [← hN, p1 s, keepMul_N] at b2
    have h4 : (Poly.mono N (BitVec w) (-(jj : ℤ)) * phase s (ctOf (n + 1) m rot)) 0 = phase s (ctOf (n + 1) m rot) ⟨jj, hjj⟩ := by
      rw [← Poly.at_coe (Poly.mono N (BitVec w) (-(jj : ℤ)) * phase s (ctOf (n + 1) m rot)) 0, Poly.at_mono_mul]
      have := Poly.at_natCast (phase s (ctOf (n + 1) m rot)) jj hjj
      simpa using this
    rw [← h4]
    exact b2
  · rw [g3 i, h0, add_sub_cancel_left]
    exact hE i _
  · rw [f3 v t fun i => h1 (i + 1), f2 v t (h1 0) h2 h3]
    exact f1 v t (Or.inl (h1 0))

/-- The levels of one chunk. -/
theorem levels_spec (ev : Circuit.Eval w N n) (hN : N = 2 ^ ev.logN) (h62 : ev.logN ≤ 62) (hg : ev.gss.Valid)
    (s : Fin (n + 1) → Pl) (K Ess : ℕ) (err : Circuit.Errs w N n) (row : ℕ → ℕ → ℕ) (rot pk pb : ℕ) (hl : CbLayout row rot pk pb)
    (hP : ∀ j, ∀ i < ev.logN, ∀ m : Mem Pl, ∃ m', permuteTo ev.gk pk (row 0 j) pb ((1#64 <<< (ev.logN - i)) + 1#64)
        (err.tr j i) m = some m' ∧
      pabs (phase s (ctOf (n + 1) m' pk)
        - Poly.subst ((1#64 <<< (ev.logN - i)) + 1#64).toInt (phase s (ctOf (n + 1) m (row 0 j)))) ≤ K ∧
      (∀ v i, v ≠ pk → v ≠ pb → m' v i = m v i))
    (e : Fin (n + 1) → Fin (n + 1 + 1) → ℕ → Pl)
    (hk : ∀ i : Fin (n + 1), IsGSW (polyGadget N ev.gss) s (s i) (ev.ssk i) (e i))
    (hE : ∀ j (i : Fin (n + 1)) (c : Fin (n + 1 + 1) → Pl),
      pabs (extNoise (polyGadget N ev.gss) s (s i) (e i) c (err.ss j i)) ≤ Ess)
    (start c : ℕ) (hc : c ≤ N) (m : Mem Pl) :
    ∃ m', (List.range c).foldlM (Circuit.level ev err row rot pk pb start) m = some m' ∧
      (∀ jj (h : jj < c),
        pabs (phase s (ctOf (n + 1) m' (row 0 (start + jj)))
          - N • Poly.C N (phase s (ctOf (n + 1) m rot) ⟨jj, by omega⟩)) ≤ (N - 1) * K ∧
        (∀ i : Fin (n + 1), pabs (phase s (ctOf (n + 1) m' (row (i + 1) (start + jj)))
          - s i * phase s (ctOf (n + 1) m' (row 0 (start + jj)))) ≤ Ess)) ∧
      (∀ v t, (∀ i jj, jj < c → v ≠ row i (start + jj)) → v ≠ pk → v ≠ pb → m' v t = m v t) := by
  induction c with
  | zero => exact ⟨m, rfl, fun _ h => absurd h (Nat.not_lt_zero _), fun _ _ _ _ _ => rfl⟩
  | succ c ih =>
    obtain ⟨m1, e1, b1, f1⟩ := ih (by omega)
    obtain ⟨m2, e2, b2, b2', f2⟩ := level_spec ev hN h62 hg s K Ess err row rot pk pb hl start c (by omega) (hP _) e hk (hE _) m1
    have hrot : ctOf (n + 1) m1 rot = ctOf (n + 1) m rot := by
      funext t
      exact f1 rot t (fun i jj _ => (hl.rowrot _ _).symm) hl.rotpk hl.rotpb
    rw [hrot] at b2
    refine ⟨m2, ?_, fun jj hjj => ?_, fun v t h1 h2 h3 => ?_⟩
    · rw [List.range_succ, List.foldlM_append, e1]
      show List.foldlM (Circuit.level ev err row rot pk pb start) m1 [c] = _
      rw [List.foldlM_cons, e2]
      rfl
    · by_cases h : jj = c
      · subst h; exact ⟨b2, b2'⟩
      · have hsame : ∀ i, ctOf (n + 1) m2 (row i (start + jj)) = ctOf (n + 1) m1 (row i (start + jj)) := by
          intro i; funext t
          refine f2 _ _ (fun i' h' => ?_) (hl.rowpk _ _) (hl.rowpb _ _)
          have := (hl.inj _ _ _ _ h').2; omega
        simp only [hsame]
        exact b1 jj (by omega)
    · rw [f2 v t (fun i => h1 i c (by omega)) h2 h3, f1 v t (fun i jj hj => h1 i jj (by omega)) h2 h3]

/-! ### Tables -/

theorem setFs_spec (g : GadgetParams w) (start : ℕ) (fs : List (ℕ → BitVec w)) (c : ℕ) (hc : c ≤ fs.length) :
    (Circuit.setFs g start (start + c) fs).length = fs.length ∧
    ∀ jj, jj < c → (Circuit.setFs g start (start + c) fs)[jj]? = some fun x => BitVec.ofNat w x <<< g.logBaseQ (start + jj) := by
  unfold Circuit.setFs
  rw [Nat.add_sub_cancel_left]
  induction c with
  | zero => exact ⟨rfl, fun _ h => absurd h (Nat.not_lt_zero _)⟩
  | succ c ih =>
    obtain ⟨h1, h2⟩ := ih (by omega)
    rw [List.range_succ, List.foldl_append]
    simp only [List.foldl_cons, List.foldl_nil]
    refine ⟨by rw [List.length_set, h1], fun jj hjj => ?_⟩
    rw [List.getElem?_set]
    by_cases h : c = jj
    · subst h
      rw [if_pos rfl, if_pos (by omega)]
    · rw [if_neg h]
      exact h2 jj (by omega)

/-! ### The whole bootstrap -/

/-- Everything else that the statements quantify over: gadget parameters, Galois keys, the samples of
`GenCircuitBootstrapKey`, and bounds. -/
structure Circ (w N n : ℕ) where
  /-- bootstrapping keys and parameters -/
  b : Boot w N (n + 1)
  gtr : GadgetParams w
  gss : GadgetParams w
  gout : GadgetParams w
  /-- samples of the trace keys -/
  tr : ℕ → KeyRand (Poly N (BitVec w)) (n + 1) (n + 1)
  ssMask : ℕ → Fin (n + 1 + 1) → ℕ → Fin (n + 1) → Poly N (BitVec w)
  ssErr : ℕ → Fin (n + 1 + 1) → ℕ → Fin (n + 1) → Poly N (BitVec w)
  ssNoise : ℕ → Fin (n + 1 + 1) → ℕ → Poly N (BitVec w)
  ssPerr : ℕ → Fin (n + 1) → Poly N (BitVec w)
  /-- bound on the noise of the trace keys -/
  Btr : ℕ
  /-- bound on the noise of the scheme-switching keys -/
  Bss : ℕ
  /-- bounds on the Fourier errors of the trace and of scheme switching -/
  Ftr : ℕ
  Fss : ℕ

namespace Circ
variable (c : Circ w N n)

/-- `SchemeSwitchKey`. -/
def ssk : ℕ → Fin (n + 1 + 1) → ℕ → Fin (n + 1 + 1) → Pl :=
  Circuit.genSchemeSwitchKey c.gss c.b.sk c.ssMask c.ssErr c.ssNoise c.ssPerr
/-- The noise of these keys. -/
def sskNoise (i : Fin (n + 1)) : Fin (n + 1 + 1) → ℕ → Pl := fun t j =>
  Poly.C N (c.gss.baseQ j) * (Fin.cons 0 (c.ssPerr i) : Fin (n + 1 + 1) → Pl) t + c.ssNoise i t j - ∑ l, c.ssErr i t j l

structure Valid : Prop where
  b : c.b.Valid
  f : c.b.f = 1
  gtr : c.gtr.Valid
  gss : c.gss.Valid
  tr : ∀ t i j, pabs ((c.tr t).noise i j - ∑ l, (c.tr t).err i j l) ≤ c.Btr
  ss : ∀ i t j, j < c.gss.level → pabs (c.sskNoise i t j) ≤ c.Bss

/-- The evaluator. -/
def eval (order : BootstrapOrder) (logN lc : ℕ) (gk : GalKeys w N n) : Circuit.Eval w N n where
  order := order
  logN := logN
  lc := lc
  gbr := c.b.gbr
  gks := c.b.gks
  bs := c.b.bs
  bc := c.b.bc
  p := c.b.p.toNat
  brk := c.b.brk
  ksk := c.b.ksk
  gk := gk
  gss := c.gss
  ssk := c.ssk
  gout := c.gout

/-- Noise of one permutation of the trace. -/
def permOut : ℕ := (n + 1) * (N * (2 ^ (w - c.gtr.level * c.gtr.logBase) / 2))
  + (n + 1) * (c.gtr.level * (N * (c.gtr.base.toNat / 2 * c.Btr))) + c.Ftr
/-- Noise of row 0 of the result: blind rotation, division by `N`, trace. -/
def row0Out : ℕ := c.b.brOut + N / 2 * (1 + (n + 1) * N) + (N - 1) * c.permOut
/-- Noise of the external products. -/
def ssOut : ℕ := N * (2 ^ (w - c.gss.level * c.gss.logBase) / 2 * (1 + (n + 1) * N))
  + (n + 1 + 1) * (c.gss.level * (N * (c.gss.base.toNat / 2 * c.Bss))) + c.Fss
/-- Noise of the other rows of the result. -/
def rowOut : ℕ := N * c.row0Out + c.ssOut
end Circ

/-- Level `j` of the memory is that of a GGSW encryption of the constant `m`, with the noise bounds of `c`. -/
def LevelOk (c : Circ w N n) (row : ℕ → ℕ → ℕ) (msg : BitVec w) (mem : Mem Pl) (j : ℕ) : Prop :=
  pabs (phase c.b.sk (ctOf (n + 1) mem (row 0 j)) - Poly.C N (msg * c.gout.baseQ j)) ≤ c.row0Out ∧
  ∀ i : Fin (n + 1), pabs (phase c.b.sk (ctOf (n + 1) mem (row (i + 1) j)) - Poly.C N (msg * c.gout.baseQ j) * c.b.sk i)
    ≤ c.rowOut

omit [NeZero N] in
theorem sk_binary (b : Boot w N (n + 1)) (i : Fin (n + 1)) (j : Fin N) : b.sk i j = 0 ∨ b.sk i j = 1 := by
  show kbit w (b.lk _) = 0 ∨ kbit w (b.lk _) = 1
  unfold kbit
  split
  · exact Or.inr rfl
  · exact Or.inl rfl

theorem nsmul_C (t : ℕ) (x : BitVec w) : t • Poly.C N x = Poly.C N (t • x) := by
  induction t with
  | zero => rw [zero_smul, zero_smul, Poly.C_zero]
  | succ t ih => rw [succ_nsmul, succ_nsmul, ih, Poly.C_add]

theorem pabs_C_le (x : BitVec w) : pabs (Poly.C N x) ≤ wabs x := by
  rw [pabs_le_iff]
  intro i
  rw [Poly.C_apply]
  split
  · exact le_rfl
  · rw [wabs_zero]; exact Nat.zero_le _

/-- One chunk of levels. -/
theorem chunk_spec (c : Circ w N n) (hv : c.Valid) (order : BootstrapOrder) (logN lc : ℕ) (hN : N = 2 ^ logN)
    (hlogN : logN + 2 ≤ w) (h62 : logN ≤ 62) (hlc : lc ≤ logN) (hal : MlAligned N c.b.p.toNat (2 ^ lc)) (gk : GalKeys w N n)
    (hgk : genGaloisKeysForPack logN c.gtr c.b.sk c.tr = some gk)
    (err : Circuit.Errs w N n) (hbr : ∀ t i, pabs (phase c.b.sk (err.br t i)) ≤ c.b.Fe)
    (htr : ∀ j i, pabs (phase c.b.sk (err.tr j i)) ≤ c.Ftr) (hss : ∀ j i, pabs (phase c.b.sk (err.ss j i)) ≤ c.Fss)
    (row : ℕ → ℕ → ℕ) (rot pk pb : ℕ) (hl : CbLayout row rot pk pb) (ct : ℕ → BitVec w) (m : ℕ) (hm : m < c.b.p.toNat)
    (e : BitVec w) (hct : binPhase (c.b.ctDim order) c.b.lk ct = BitVec.ofNat w (m * c.b.s.toNat) + e)
    (hcond : (c.b.inNoise order (wabs e) : ℚ) * (2 * N) / 2 ^ w + c.b.mlWindow lc ≤ N / (2 * c.b.p.toNat))
    (st : Circuit.State w N) (hfs : st.1.length = 2 ^ lc) (hraw : st.2.1.length = N) (t : ℕ) (ht : t * 2 ^ lc ≤ c.gout.level) :
    ∃ st', Circuit.chunk (c.eval order logN lc gk) err row rot pk pb ct st t = some st' ∧
      st'.1.length = 2 ^ lc ∧ st'.2.1.length = N ∧
      (∀ j, t * 2 ^ lc ≤ j → j < (t + 1) * 2 ^ lc → j < c.gout.level → LevelOk c row (BitVec.ofNat w m) st'.2.2 j) ∧
      (∀ v i, (∀ r j, t * 2 ^ lc ≤ j → j < (t + 1) * 2 ^ lc → j < c.gout.level → v ≠ row r j) → v ≠ rot → v ≠ pk → v ≠ pb →
        st'.2.2 v i = st.2.2 v i) := by
  set start := t * 2 ^ lc with hstart
  obtain ⟨len, hlen, hlen2⟩ : ∃ len, min (start + 2 ^ lc) c.gout.level = start + len ∧
      ∀ j, start ≤ j → (j < (t + 1) * 2 ^ lc ∧ j < c.gout.level ↔ j < start + len) :=
    ⟨min (start + 2 ^ lc) c.gout.level - start, by omega, fun j hj => by rw [Nat.succ_mul]; omega⟩
  have hlen3 : len ≤ 2 ^ lc := by omega
  have hcN : 2 ^ lc ≤ N := by rw [hN]; exact Nat.pow_le_pow_right (by norm_num) hlc
  obtain ⟨s1, s2⟩ := setFs_spec c.gout start st.1 len (by omega)
  set fs := Circuit.setFs c.gout start (start + len) st.1 with hfsd
  have hp0 : 0 < c.b.p.toNat := by omega
  have hpL := hv.b.pL
  rw [hv.f, Nat.one_mul] at hpL
  obtain ⟨V, hV, hwin⟩ := C40_genLUT_partial w N c.b.p.toNat (2 ^ lc) (by positivity) fs (by omega) st.2.1 hraw hp0 hv.b.pw
    hv.b.p52 hpL hal
  have hval := c.b.ml_lookup order hv.b logN lc hN hlogN hlc V _ hwin ct m hm e hct hcond
  unfold mlGenLUTFull at hV
  obtain ⟨raw, hraw1, hraw2⟩ := Option.bind_eq_some_iff.1 hV
  have hraw3 : raw.length = N := by
    unfold mlPoly at hraw2
    by_contra h
    rw [dif_neg h] at hraw2
    exact absurd hraw2 (by simp)
  -- blind rotation and division
  set ev := c.eval order logN lc gk with hev
  have hin : Circuit.input ev ct = c.b.brInput order ct := by
    cases order <;> rfl
  set r := mlRotate logN lc (polyGadget N c.b.gbr) c.b.bs c.b.bc c.b.brk (err.br t) (c.b.brInput order ct) V with hr
  obtain ⟨w1, w2⟩ := mapLoopI_whole (fun i _ _ _ => ext0 r i : ℕ → Pl → Pl → Pl → Pl) (n + 1) rot rot rot st.2.2
  set m1 := mapLoopI (fun i _ _ _ => ext0 r i : ℕ → Pl → Pl → Pl → Pl) rot rot rot (List.range (n + 1 + 1)) st.2.2 with hm1
  have hS : ∀ i x, pabs (x * c.b.sk i) ≤ N * pabs x := fun i x => pabs_mul_binary _ (sk_binary c.b i) x
  obtain ⟨ρ, hρ, d1, d2⟩ := divide_phase logN (by omega) c.b.sk N hS rot m1
  have w1' : ctOf (n + 1) m1 rot = r := by rw [w1]; funext i; exact ext0_coe _ i
  rw [w1', ← hN] at d1
  rw [← hN] at hρ
  obtain ⟨hodd, -⟩ := C37_degrees logN h62
  obtain ⟨m2, e2, b2, f2⟩ := levels_spec ev hN h62 hv.gss c.b.sk c.permOut c.ssOut err row rot pk pb hl
    (fun j i hi m => C36_bound logN hN c.gtr hv.gtr c.b.sk (sk_binary c.b) c.tr (packAuts logN) hodd gk hgk _
      (traceDegree_mem logN i hi) pk (row 0 j) pb (hl.rowpb _ _).symm (err.tr j i) m c.Btr c.Ftr hv.tr (htr j i))
    c.sskNoise
    (fun i => by
      show IsGSW (polyGadget N c.gss) c.b.sk (c.b.sk i) (c.ssk i) (c.sskNoise i)
      unfold Circ.ssk Circuit.genSchemeSwitchKey
      rw [dif_pos i.2]
      exact isGSW_encryptGGSW c.gss c.b.sk _ _ _ _ _)
    (fun j i x => C13_noise_le (polyNorm N w) (polyGadget N c.gss) (polyGadget_bounded c.gss hv.gss) c.b.sk (c.b.sk i) _ _ _
      N N c.Bss c.Fss (fun y => by rw [mul_comm]; exact hS i y) hS (fun t j hj => hv.ss i t j hj) (hss j i))
    start len (by omega) (Circuit.divide (n + 1) logN rot m1)
  refine ⟨(fs, raw, m2), ?_, by rw [s1, hfs], hraw3, fun j h1 h2 h3 => ?_, fun v i h1 h2 h3 h4 => ?_⟩
  · unfold Circuit.chunk
    show (mlGenRaw w N c.b.p.toNat (2 ^ lc) (Circuit.setFs c.gout start (min (start + 2 ^ lc) c.gout.level) st.1) st.2.1).bind _ = _
    rw [hlen, ← hfsd, hraw1, Option.bind_some, hraw2, Option.bind_some]
    show Option.map _ ((List.range (min (start + 2 ^ lc) c.gout.level - start)).foldlM (Circuit.level ev err row rot pk pb start)
      (Circuit.divide (n + 1) logN rot (mapLoopI (fun i _ _ _ => ext0 (mlRotate logN lc (polyGadget N c.b.gbr) c.b.bs c.b.bc
        c.b.brk (err.br t) (Circuit.input ev ct) V) i) rot rot rot (List.range (n + 1 + 1)) st.2.2))) = _
    rw [hlen, Nat.add_sub_cancel_left, hin, ← hr, ← hm1, e2]
    show some (Circuit.setFs c.gout start (min (start + 2 ^ lc) c.gout.level) st.1, raw, m2) = _
    rw [hlen]
  · obtain ⟨jj, rfl⟩ : ∃ jj, j = start + jj := ⟨j - start, by omega⟩
    have hjj : jj < len := by have := (hlen2 _ h1).1 ⟨h2, h3⟩; omega
    obtain ⟨b3, b4⟩ := b2 jj hjj
    have hjN : jj < N := by omega
    have hrot := c.b.ml_rot hv.b.toKeyValid logN lc (err.br t) (hbr t) V (c.b.brInput order ct) jj hjN
    rw [hval jj (by omega), ← hr] at hrot
    have hmv : mlValues fs m jj = BitVec.ofNat w m * c.gout.baseQ (start + jj) := by
      unfold mlValues
      rw [s2 jj hjj]
      exact shl_logBaseQ _ _ _
    rw [hmv] at hrot
    have hrow0 : pabs (phase c.b.sk (ctOf (n + 1) m2 (row 0 (start + jj)))
        - Poly.C N (BitVec.ofNat w m * c.gout.baseQ (start + jj))) ≤ c.row0Out := by
      have h5 : N • Poly.C N (phase c.b.sk (ctOf (n + 1) (Circuit.divide (n + 1) logN rot m1) rot) ⟨jj, hjN⟩)
          = Poly.C N (phase c.b.sk r ⟨jj, hjN⟩ + ρ ⟨jj, hjN⟩) := by
        rw [nsmul_C]
        exact congrArg _ (congrFun d1 ⟨jj, hjN⟩)
      rw [h5] at b3
      have h7 : phase c.b.sk (ctOf (n + 1) m2 (row 0 (start + jj))) - Poly.C N (BitVec.ofNat w m * c.gout.baseQ (start + jj))
          = Poly.C N (phase c.b.sk r ⟨jj, hjN⟩ - BitVec.ofNat w m * c.gout.baseQ (start + jj) + ρ ⟨jj, hjN⟩)
            + (phase c.b.sk (ctOf (n + 1) m2 (row 0 (start + jj))) - Poly.C N (phase c.b.sk r ⟨jj, hjN⟩ + ρ ⟨jj, hjN⟩)) := by
        rw [show phase c.b.sk r ⟨jj, hjN⟩ - BitVec.ofNat w m * c.gout.baseQ (start + jj) + ρ ⟨jj, hjN⟩
          = (phase c.b.sk r ⟨jj, hjN⟩ + ρ ⟨jj, hjN⟩) - BitVec.ofNat w m * c.gout.baseQ (start + jj) by ring, Poly.C_sub]
        ring
      rw [h7]
      refine (pabs_add_le _ _).trans (Nat.add_le_add ((pabs_C_le _).trans ?_) b3)
      exact (wabs_add_le _ _).trans (Nat.add_le_add hrot ((wabs_le_pabs ρ _).trans hρ))
    refine ⟨hrow0, fun i => ?_⟩
    have h8 : phase c.b.sk (ctOf (n + 1) m2 (row (i + 1) (start + jj)))
        - Poly.C N (BitVec.ofNat w m * c.gout.baseQ (start + jj)) * c.b.sk i
        = (phase c.b.sk (ctOf (n + 1) m2 (row 0 (start + jj))) - Poly.C N (BitVec.ofNat w m * c.gout.baseQ (start + jj))) * c.b.sk i
          + (phase c.b.sk (ctOf (n + 1) m2 (row (i + 1) (start + jj)))
            - c.b.sk i * phase c.b.sk (ctOf (n + 1) m2 (row 0 (start + jj)))) := by ring
    show pabs (phase c.b.sk (ctOf (n + 1) m2 (row (i + 1) (start + jj)))
        - Poly.C N (BitVec.ofNat w m * c.gout.baseQ (start + jj)) * c.b.sk i) ≤ _
    rw [h8]
    exact (pabs_add_le _ _).trans (Nat.add_le_add ((hS i _).trans (Nat.mul_le_mul_left _ hrow0)) (b4 i))
  · show m2 v i = _
    rw [f2 v i (fun r jj hjj => by
      have := (hlen2 (start + jj) (by omega)).2 (by omega)
      exact h1 r _ (by omega) this.1 this.2) h3 h4, d2 v i h2]
    exact w2 v i (Or.inl h2)

/-- The loop over the chunks. -/
theorem chunks_spec (c : Circ w N n) (hv : c.Valid) (order : BootstrapOrder) (logN lc : ℕ) (hN : N = 2 ^ logN)
    (hlogN : logN + 2 ≤ w) (h62 : logN ≤ 62) (hlc : lc ≤ logN) (hal : MlAligned N c.b.p.toNat (2 ^ lc)) (gk : GalKeys w N n)
    (hgk : genGaloisKeysForPack logN c.gtr c.b.sk c.tr = some gk)
    (err : Circuit.Errs w N n) (hbr : ∀ t i, pabs (phase c.b.sk (err.br t i)) ≤ c.b.Fe)
    (htr : ∀ j i, pabs (phase c.b.sk (err.tr j i)) ≤ c.Ftr) (hss : ∀ j i, pabs (phase c.b.sk (err.ss j i)) ≤ c.Fss)
    (row : ℕ → ℕ → ℕ) (rot pk pb : ℕ) (hl : CbLayout row rot pk pb) (ct : ℕ → BitVec w) (m : ℕ) (hm : m < c.b.p.toNat)
    (e : BitVec w) (hct : binPhase (c.b.ctDim order) c.b.lk ct = BitVec.ofNat w (m * c.b.s.toNat) + e)
    (hcond : (c.b.inNoise order (wabs e) : ℚ) * (2 * N) / 2 ^ w + c.b.mlWindow lc ≤ N / (2 * c.b.p.toNat))
    (st : Circuit.State w N) (hfs : st.1.length = 2 ^ lc) (hraw : st.2.1.length = N) (T : ℕ)
    (hT : ∀ t, t < T → t * 2 ^ lc ≤ c.gout.level) :
    ∃ st', (List.range T).foldlM (Circuit.chunk (c.eval order logN lc gk) err row rot pk pb ct) st = some st' ∧
      st'.1.length = 2 ^ lc ∧ st'.2.1.length = N ∧
      (∀ j, j < T * 2 ^ lc → j < c.gout.level → LevelOk c row (BitVec.ofNat w m) st'.2.2 j) ∧
      (∀ v i, (∀ r j, j < c.gout.level → v ≠ row r j) → v ≠ rot → v ≠ pk → v ≠ pb → st'.2.2 v i = st.2.2 v i) := by
  induction T with
  | zero => exact ⟨st, rfl, hfs, hraw, fun j h => absurd h (by omega), fun _ _ _ _ _ _ => rfl⟩
  | succ T ih =>
    obtain ⟨st1, e1, l1, r1, k1, f1⟩ := ih fun t ht => hT t (by omega)
    obtain ⟨st2, e2, l2, r2, k2, f2⟩ := chunk_spec c hv order logN lc hN hlogN h62 hlc hal gk hgk err hbr htr hss row rot pk pb hl
      ct m hm e hct hcond st1 l1 r1 T (hT T (by omega))
    refine ⟨st2, ?_, l2, r2, fun j h1 h2 => ?_, fun v i h1 h2 h3 h4 => ?_⟩
    · rw [List.range_succ, List.foldlM_append, e1]
      show List.foldlM (Circuit.chunk (c.eval order logN lc gk) err row rot pk pb ct) st1 [T] = _
      rw [List.foldlM_cons, e2]
      rfl
    · by_cases h : T * 2 ^ lc ≤ j
      · exact k2 j h h1 h2
      · have hsame : ∀ r, ctOf (n + 1) st2.2.2 (row r j) = ctOf (n + 1) st1.2.2 (row r j) := by
          intro r; funext t
          exact f2 _ _ (fun r' j' h5 _ _ h6 => by have := (hl.inj _ _ _ _ h6).2; omega) (hl.rowrot _ _) (hl.rowpk _ _)
            (hl.rowpb _ _)
        have := k1 j (by omega) h2
        unfold LevelOk at this ⊢
        simp only [hsame]
        exact this
    · rw [f2 v i (fun r j _ _ h => h1 r j h) h2 h3 h4, f1 v i h1 h2 h3 h4]

/-- **C38.** `CircuitBootstrap` of an encryption of `m`, with keys from the generators, for every ciphertext whose noise
fits the window, both orders, every number of levels and of functions (also one that does not divide the levels), every
old content of all buffers: the result is a GGSW encryption of the constant `m`; row 0 has noise at most `row0Out`, the
other rows at most `rowOut`.  The state it leaves behind is fit for the next call.
Missing: parameters whose windows are not multiples of the number of functions, see `C40_misaligned`. -/
theorem C38_partial (c : Circ w N n) (hv : c.Valid) (order : BootstrapOrder) (logN lc : ℕ) (hN : N = 2 ^ logN)
    (hlogN : logN + 2 ≤ w) (h62 : logN ≤ 62) (hlc : lc ≤ logN) (hal : MlAligned N c.b.p.toNat (2 ^ lc))
    (err : Circuit.Errs w N n) (hbr : ∀ t i, pabs (phase c.b.sk (err.br t i)) ≤ c.b.Fe)
    (htr : ∀ j i, pabs (phase c.b.sk (err.tr j i)) ≤ c.Ftr) (hss : ∀ j i, pabs (phase c.b.sk (err.ss j i)) ≤ c.Fss)
    (row : ℕ → ℕ → ℕ) (rot pk pb : ℕ) (hl : CbLayout row rot pk pb) (ct : ℕ → BitVec w) (m : ℕ) (hm : m < c.b.p.toNat)
    (e : BitVec w) (hct : binPhase (c.b.ctDim order) c.b.lk ct = BitVec.ofNat w (m * c.b.s.toNat) + e)
    (hcond : (c.b.inNoise order (wabs e) : ℚ) * (2 * N) / 2 ^ w + c.b.mlWindow lc ≤ N / (2 * c.b.p.toNat))
    (st : Circuit.State w N) (hfs : st.1.length = 2 ^ lc) (hraw : st.2.1.length = N) :
    ∃ gk st' err', genGaloisKeysForPack logN c.gtr c.b.sk c.tr = some gk ∧
      Circuit.bootstrapTo (c.eval order logN lc gk) err row rot pk pb ct st = some st' ∧
      IsGSW (polyGadget N c.gout) c.b.sk (Poly.C N (BitVec.ofNat w m)) (Circuit.ggswOf row st'.2.2) err' ∧
      (∀ j, j < c.gout.level → pabs (err' 0 j) ≤ c.row0Out ∧ ∀ i : Fin (n + 1), pabs (err' i.succ j) ≤ c.rowOut) ∧
      st'.1.length = 2 ^ lc ∧ st'.2.1.length = N := by
  obtain ⟨hodd, -⟩ := C37_degrees logN h62
  obtain ⟨gk, hgk, -⟩ := C36_genGaloisKeys c.gtr c.b.sk c.tr (packAuts logN) hodd
  have hc0 : 0 < 2 ^ lc := by positivity
  obtain ⟨st', e1, l1, r1, k1, -⟩ := chunks_spec c hv order logN lc hN hlogN h62 hlc hal gk hgk err hbr htr hss row rot pk pb hl
      ct m hm e hct hcond st hfs hraw ((c.gout.level + (2 ^ lc - 1)) / 2 ^ lc) (fun t ht => by
        have h1 : (t + 1) * 2 ^ lc ≤ c.gout.level + (2 ^ lc - 1) := (Nat.le_div_iff_mul_le hc0).1 ht
        rw [Nat.succ_mul] at h1
        omega)
  have hall : ∀ j, j < c.gout.level → j < (c.gout.level + (2 ^ lc - 1)) / 2 ^ lc * 2 ^ lc := by
    intro j hj
    have h1 := Nat.lt_div_mul_add (a := c.gout.level + (2 ^ lc - 1)) hc0
    omega
  refine ⟨gk, st', Fin.cons
      (fun j => phase c.b.sk (ctOf (n + 1) st'.2.2 (row 0 j)) - Poly.C N (BitVec.ofNat w m * c.gout.baseQ j))
      (fun i j => phase c.b.sk (ctOf (n + 1) st'.2.2 (row (i + 1) j)) - Poly.C N (BitVec.ofNat w m * c.gout.baseQ j) * c.b.sk i),
    hgk, e1, ⟨fun j hj => ?_, fun i j hj => ?_⟩, fun j hj => ⟨?_, fun i => ?_⟩, l1, r1⟩
  · rw [Fin.cons_zero]
    show phase c.b.sk (ctOf (n + 1) st'.2.2 (row 0 j)) = Poly.C N (BitVec.ofNat w m) * Poly.C N (c.gout.baseQ j) + _
    rw [Poly.C_mul]; ring
  · rw [Fin.cons_succ]
    show phase c.b.sk (ctOf (n + 1) st'.2.2 (row (i + 1) j))
      = Poly.C N (BitVec.ofNat w m) * c.b.sk i * Poly.C N (c.gout.baseQ j) + _
    rw [Poly.C_mul]; ring
  · rw [Fin.cons_zero]
    exact (k1 j (hall j hj) hj).1
  · rw [Fin.cons_succ]
    exact (k1 j (hall j hj) hj).2 i

/-- **C38 (use).** Under the same hypotheses, an external product with the result multiplies any phase by `m`: the
noise is `m` times the decomposition loss plus the digits times the noise of the rows. -/
theorem C38_externalProd_partial (c : Circ w N n) (hv : c.Valid) (hgo : c.gout.Valid) (order : BootstrapOrder) (logN lc : ℕ)
    (hN : N = 2 ^ logN)
    (hlogN : logN + 2 ≤ w) (h62 : logN ≤ 62) (hlc : lc ≤ logN) (hal : MlAligned N c.b.p.toNat (2 ^ lc))
    (err : Circuit.Errs w N n) (hbr : ∀ t i, pabs (phase c.b.sk (err.br t i)) ≤ c.b.Fe)
    (htr : ∀ j i, pabs (phase c.b.sk (err.tr j i)) ≤ c.Ftr) (hss : ∀ j i, pabs (phase c.b.sk (err.ss j i)) ≤ c.Fss)
    (row : ℕ → ℕ → ℕ) (rot pk pb : ℕ) (hl : CbLayout row rot pk pb) (ct : ℕ → BitVec w) (m : ℕ) (hm : m < c.b.p.toNat)
    (e : BitVec w) (hct : binPhase (c.b.ctDim order) c.b.lk ct = BitVec.ofNat w (m * c.b.s.toNat) + e)
    (hcond : (c.b.inNoise order (wabs e) : ℚ) * (2 * N) / 2 ^ w + c.b.mlWindow lc ≤ N / (2 * c.b.p.toNat))
    (st : Circuit.State w N) (hfs : st.1.length = 2 ^ lc) (hraw : st.2.1.length = N) :
    ∃ gk st', genGaloisKeysForPack logN c.gtr c.b.sk c.tr = some gk ∧
      Circuit.bootstrapTo (c.eval order logN lc gk) err row rot pk pb ct st = some st' ∧
      ∀ (out v : ℕ) (ferr : Fin (n + 1 + 1) → Pl) (mem : Mem Pl),
        pabs (phase c.b.sk (ctOf (n + 1) (externalProdTo (polyGadget N c.gout) (n + 1) out (Circuit.ggswOf row st'.2.2) v ferr mem) out)
          - Poly.C N (BitVec.ofNat w m) * phase c.b.sk (ctOf (n + 1) mem v))
        ≤ m * (2 ^ (w - c.gout.level * c.gout.logBase) / 2 * (1 + (n + 1) * N))
          + (n + 1 + 1) * (c.gout.level * (N * (c.gout.base.toNat / 2 * c.rowOut))) + pabs (phase c.b.sk ferr) := by
  obtain ⟨gk, st', err', h1, h2, h3, h4, -⟩ := C38_partial c hv order logN lc hN hlogN h62 hlc hal err hbr htr hss row rot pk pb hl
    ct m hm e hct hcond st hfs hraw
  refine ⟨gk, st', h1, h2, fun out v ferr mem => ?_⟩
  rw [(C13_externalProd (polyGadget N c.gout) hgo.level_pos c.b.sk _ _ _ h3 out v ferr mem).1, add_sub_cancel_left]
  have hle : c.row0Out ≤ c.rowOut := by
    unfold Circ.rowOut
    have := Nat.le_mul_of_pos_left c.row0Out (NeZero.pos N)
    omega
  have := C13_noise_le (polyNorm N w) (polyGadget N c.gout) (polyGadget_bounded c.gout hgo) c.b.sk (Poly.C N (BitVec.ofNat w m))
    err' (ctOf (n + 1) mem v) ferr m N c.rowOut _ (fun x => by
      show pabs _ ≤ _ * pabs _
      rw [pabs_le_iff]
      intro i
      rw [Poly.C_mul_apply]
      have h5 := wabs_mul_le (BitVec.ofNat w m) (x i)
      have h6 : wabs (BitVec.ofNat w m) ≤ m := wabs_cast_le m
      exact h5.trans (Nat.mul_le_mul h6 (wabs_le_pabs x i)))
    (fun i x => pabs_mul_binary _ (sk_binary c.b i) x)
    (fun i j hj => by
      refine Fin.cases ?_ (fun i => ?_) i
      · exact ((h4 j hj).1).trans hle
      · exact (h4 j hj).2 i) le_rfl
  exact this

/-! ### An instance -/

/-- Parameters with smaller bases; 3 levels. -/
def exCirc (N : ℕ) [NeZero N] (brMask : ℕ → Fin 2 → ℕ → Fin 1 → Poly N (BitVec 64))
    (ksMask : ℕ → ℕ → Fin (3 * 200) → BitVec 64)
    (brNoise : ℕ → Fin 2 → ℕ → Poly N (BitVec 64)) (ksNoise : ℕ → ℕ → BitVec 64)
    (tr : ℕ → KeyRand (Poly N (BitVec 64)) 1 1) (ssMask : ℕ → Fin 2 → ℕ → Fin 1 → Poly N (BitVec 64))
    (ssNoise : ℕ → Fin 2 → ℕ → Poly N (BitVec 64)) : Circ 64 N 0 where
  b := { exBoot N brMask ksMask brNoise ksNoise with gbr := ⟨16, 4, 12⟩ }
  gtr := ⟨16, 4, 12⟩
  gss := ⟨16, 4, 12⟩
  gout := ⟨16, 4, 3⟩
  tr := tr
  ssMask := ssMask
  ssErr := 0
  ssNoise := ssNoise
  ssPerr := 0
  Btr := 2 ^ 10
  Bss := 2 ^ 10
  Ftr := 2 ^ 10
  Fss := 2 ^ 10

theorem exCirc_valid (N : ℕ) [NeZero N] (hN : N = 2048) (brMask ksMask brNoise ksNoise tr ssMask ssNoise)
    (h1 : ∀ j i l, pabs (brNoise j i l) ≤ 2 ^ 10) (h2 : ∀ i j, wabs (ksNoise i j) ≤ 2 ^ 40)
    (h3 : ∀ t i j, pabs ((tr t).noise i j - ∑ l, (tr t).err i j l) ≤ 2 ^ 10)
    (h4 : ∀ i t j, pabs (ssNoise i t j) ≤ 2 ^ 10) :
    (exCirc N brMask ksMask brNoise ksNoise tr ssMask ssNoise).Valid where
  b :=
    { exBoot_valid N hN brMask ksMask brNoise ksNoise h1 h2 with
      gbr := show (⟨16, 4, 12⟩ : GadgetParams 64).Valid by constructor <;> decide }
  f := rfl
  gtr := show (⟨16, 4, 12⟩ : GadgetParams 64).Valid by constructor <;> decide
  gss := show (⟨16, 4, 12⟩ : GadgetParams 64).Valid by constructor <;> decide
  tr := h3
  ss := fun i t j _ => by
    have h0 : (Fin.cons 0 ((0 : ℕ → Fin 1 → Poly N (BitVec 64)) i) : Fin 2 → Poly N (BitVec 64)) t = 0 := by
      refine Fin.cases rfl (fun _ => rfl) t
    show pabs (Poly.C N _ * (Fin.cons 0 ((0 : ℕ → Fin 1 → Poly N (BitVec 64)) i) : Fin 2 → Poly N (BitVec 64)) t
      + ssNoise i t j - ∑ l : Fin 1, (0 : Poly N (BitVec 64))) ≤ _
    rw [h0, mul_zero, zero_add, Finset.sum_const_zero, sub_zero]
    exact h4 i t j

/-- Two functions per table and three levels (so the second chunk has one function only), every mask, key noise up to
`2^10`: every ciphertext of 3 with noise up to `2^53` becomes a GGSW ciphertext of 3 with noise at most `2^41` in row 0 and
`2^52` in row 1; the gadget is `2^60, 2^56, 2^52`. -/
example (N : ℕ) [NeZero N] (hN : N = 2048) (brMask ksMask brNoise ksNoise tr ssMask ssNoise)
    (h1 : ∀ j i l, pabs (brNoise j i l) ≤ 2 ^ 10) (h2 : ∀ i j, wabs (ksNoise i j) ≤ 2 ^ 40)
    (h3 : ∀ t i j, pabs ((tr t).noise i j - ∑ l, (tr t).err i j l) ≤ 2 ^ 10)
    (h4 : ∀ i t j, pabs (ssNoise i t j) ≤ 2 ^ 10) (order : BootstrapOrder)
    (mask : ℕ → BitVec 64) (e : BitVec 64) (he : wabs e ≤ 2 ^ 53) (f0 f1 : ℕ → BitVec 64) (raw : List (BitVec 64))
    (hraw : raw.length = N) (mem : Mem (Poly N (BitVec 64))) :
    let c := exCirc N brMask ksMask brNoise ksNoise tr ssMask ssNoise
    let ct := fun t => if t = 0 then BitVec.ofNat 64 (3 * 0x2000000000000000) + e
        - ∑ i ∈ Finset.range (c.b.ctDim order), (if c.b.lk i then mask i else 0) else mask (t - 1)
    ∃ gk st' err', genGaloisKeysForPack 11 c.gtr c.b.sk c.tr = some gk ∧
      Circuit.bootstrapTo (c.eval order 11 1 gk) ⟨0, 0, 0⟩ (fun i j => 3 + Nat.pair i j) 0 1 2 ct ([f0, f1], raw, mem) = some st' ∧
      IsGSW (polyGadget N ⟨16, 4, 3⟩) c.b.sk (Poly.C N 3#64) (Circuit.ggswOf (fun i j => 3 + Nat.pair i j) st'.2.2) err' ∧
      (∀ j, j < 3 → pabs (err' 0 j) ≤ 2 ^ 41 ∧ pabs (err' 1 j) ≤ 2 ^ 52) := by
  intro c ct
  have hv := exCirc_valid N hN brMask ksMask brNoise ksNoise tr ssMask ssNoise h1 h2 h3 h4
  have hw : weight (3 * 200) (fun i => i % 3 == 1) = 200 := by decide +kernel
  have hNq : (N : ℚ) = 2048 := by exact_mod_cast hN
  have hks : c.b.ksOut ≤ 2 ^ 57 := by
    show ksBound (⟨16, 4, 8⟩ : GadgetParams 64) (1 * N - 3 * 200) (2 ^ 40) ≤ _
    rw [hN]
    decide +kernel
  have hin : c.b.inNoise order (wabs e) ≤ 2 ^ 53 + 2 ^ 57 := by
    cases order
    · exact Nat.add_le_add he hks
    · exact he.trans (by norm_num)
  have h0 : ∀ F : ℕ, pabs (phase c.b.sk 0) ≤ F := by
    have h0 : pabs (0 : Poly N (BitVec 64)) = 0 := (polyNorm N 64).zero
    intro F
    rw [phase_zero, h0]; exact Nat.zero_le _
  have g2 : binPhase (c.b.ctDim order) c.b.lk ct = BitVec.ofNat 64 (3 * c.b.s.toNat) + e := by
    unfold binPhase
    simp only [ct, if_true, Nat.add_sub_cancel, Nat.succ_ne_zero, if_false]
    exact sub_add_cancel _ _
  have g3 : (c.b.inNoise order (wabs e) : ℚ) * (2 * N) / 2 ^ 64 + c.b.mlWindow 1 ≤ N / (2 * c.b.p.toNat) := by
    have hin' : (c.b.inNoise order (wabs e) : ℚ) ≤ 2 ^ 53 + 2 ^ 57 := by exact_mod_cast hin
    show _ * (2 * (N : ℚ)) / 2 ^ 64 + ((1 + (weight (3 * 200) (fun i => i % 3 == 1) : ℚ)) * (2 ^ 1 / 2)
      + (N : ℚ) * |(2 : ℚ) ^ 64 - 2 * ((4 : ℕ) : ℚ) * ((0x2000000000000000 : ℕ) : ℚ)| / 2 ^ 64 + 1) ≤ (N : ℚ) / (2 * ((4 : ℕ) : ℚ))
    rw [hw, hNq]
    norm_num
    linarith
  obtain ⟨gk, st', err', a1, a2, a3, a4, -⟩ := C38_partial c hv order 11 1 (by rw [hN]; norm_num) (by norm_num) (by norm_num)
    (by norm_num) (mlAligned_of_dvd N 4 (2 ^ 1) (by norm_num) (Or.inl (by rw [hN]; exact ⟨128, by norm_num⟩)))
    ⟨0, 0, 0⟩ (fun _ _ => h0 _) (fun _ _ => h0 _) (fun _ _ => h0 _) (fun i j => 3 + Nat.pair i j) 0 1 2
    ⟨fun i j i' j' h => by
        have := Nat.pair_eq_pair.1 (Nat.add_left_cancel h)
        exact this, fun i j => by omega, fun i j => by omega, fun i j => by omega, by omega, by omega⟩
    ct 3 (show 3 < 4 by norm_num) e g2 g3 ([f0, f1], raw, mem) rfl hraw
  have r0 : c.row0Out ≤ 2 ^ 41 := by
    show 200 * (3 * (2 * ((2 ^ (64 - 12 * 4) / 2) * (1 + 1 * N) + (1 + 1) * (12 * (N * (16 / 2 * 2 ^ 10))))) + 2 ^ 20)
      + N / 2 * (1 + (0 + 1) * N) + (N - 1) * ((0 + 1) * (N * (2 ^ (64 - 12 * 4) / 2))
        + (0 + 1) * (12 * (N * (16 / 2 * 2 ^ 10))) + 2 ^ 10) ≤ _
    rw [hN]; norm_num
  have r1 : c.rowOut ≤ 2 ^ 52 := by
    show N * (200 * (3 * (2 * ((2 ^ (64 - 12 * 4) / 2) * (1 + 1 * N) + (1 + 1) * (12 * (N * (16 / 2 * 2 ^ 10))))) + 2 ^ 20)
      + N / 2 * (1 + (0 + 1) * N) + (N - 1) * ((0 + 1) * (N * (2 ^ (64 - 12 * 4) / 2))
        + (0 + 1) * (12 * (N * (16 / 2 * 2 ^ 10))) + 2 ^ 10))
      + (N * (2 ^ (64 - 12 * 4) / 2 * (1 + (0 + 1) * N)) + (0 + 1 + 1) * (12 * (N * (16 / 2 * 2 ^ 10))) + 2 ^ 10) ≤ _
    rw [hN]; norm_num
  exact ⟨gk, st', err', a1, a2, a3, fun j hj => ⟨((a4 j hj).1).trans r0, ((a4 j hj).2 0).trans r1⟩⟩
end Tfhe
