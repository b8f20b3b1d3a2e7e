import Verif.Props.C39Rotate

/-!
# C39: FHEW bootstrapping

The keys are those of key generation.  The secret key is one vector of words `lk` (Gaussian in the code, here any words
of size at most `A`): the GLWE key consists of its pieces of length `N`, and the small LWE key is its prefix.
-/
namespace Tfhe
open Poly Bfv

namespace Fhew

/-! ### Ciphertexts under signed keys -/

section
variable {w N k : ℕ}

/-- The phase of an LWE ciphertext of dimension `n`. -/
def lphase (n : ℕ) (lk : ℕ → BitVec w) (ct : ℕ → BitVec w) : BitVec w :=
  ct 0 + ∑ i ∈ Finset.range n, ct (i + 1) * lk i

/-- The first `n` elements as an LWE key. -/
def lweKeyS (n : ℕ) (lk : ℕ → BitVec w) : Fin n → BitVec w := fun i => lk i

/-- The GLWE key with the coefficients `lk`. -/
def glweKeyS (N k : ℕ) (lk : ℕ → BitVec w) : Fin k → Poly N (BitVec w) := fun i j => lk (i.1 * N + j.1)

theorem phase_lweKeyS (n : ℕ) (lk : ℕ → BitVec w) (ct : ℕ → BitVec w) :
    phase (lweKeyS n lk) (fun t : Fin (n + 1) => ct t) = lphase n lk ct := by
  unfold phase lphase lweKeyS
  simp only [Fin.val_zero, Fin.val_succ]
  rw [Fin.sum_univ_eq_sum_range (fun i => ct (i + 1) * lk i)]

theorem extract_lphase [NeZero N] (lk : ℕ → BitVec w) (ct : Fin (k + 1) → Poly N (BitVec w)) (out : ℕ → BitVec w) :
    lphase (k * N) lk (asLWECiphertext ct ⟨0, NeZero.pos N⟩ out) = at' (phase (glweKeyS N k lk) ct) 0 := by
  have h := C10_extract ct (glweKeyS N k lk) ⟨0, NeZero.pos N⟩ out lk
  have hk : (fun t : Fin (k * N) => asLWEKey (glweKeyS N k lk) lk t) = lweKeyS (k * N) lk := by
    funext t
    have hN := NeZero.pos N
    have hd : t.1 / N < k := Nat.div_lt_of_lt_mul (lt_of_lt_of_eq t.2 (mul_comm k N))
    have := (asLWEKey_spec (glweKeyS N k lk) lk).1 ⟨t.1 / N, hd⟩ ⟨t.1 % N, Nat.mod_lt _ hN⟩
    simp only at this
    rw [mul_comm, Nat.div_add_mod] at this
    rw [this]
    show lk (t.1 / N * N + t.1 % N) = lk t.1
    rw [mul_comm, Nat.div_add_mod]
  rw [hk, phase_lweKeyS] at h
  rw [h]
  exact (at_coe (phase (glweKeyS N k lk) ct) ⟨0, NeZero.pos N⟩).symm

theorem wabs_mul_le (x y : BitVec w) : wabs (x * y) ≤ wabs x * wabs y := by
  have := (wordNorm w).mul_le x y
  rwa [show (wordNorm w).c = 1 from rfl, one_mul] at this

theorem pabs_mul_keyS [NeZero N] (lk : ℕ → BitVec w) (A : ℕ) (hA : ∀ i, wabs (lk i) ≤ A) (i : Fin k)
    (x : Poly N (BitVec w)) : pabs (x * glweKeyS N k lk i) ≤ N * A * pabs x := by
  have h1 : pabs (glweKeyS N k lk i) ≤ A := (pabs_le_iff _ _).2 fun j => hA _
  refine (pabs_mul_le _ _).trans ?_
  rw [mul_assoc, mul_comm A]
  exact Nat.mul_le_mul_left _ (Nat.mul_le_mul_left _ h1)

/-- What key switching adds. -/
def ksBoundS (g : GadgetParams w) (A m B : ℕ) : ℕ :=
  m * (A * (2 ^ (w - g.level * g.logBase) / 2)) + m * (g.level * (g.base.toNat / 2 * B))

/-- `DefaultKeySwitchTo` with the key of `GenDefaultKeySwitchKey`, from the large key to its prefix. -/
theorem defaultKeySwitch_lphase (g : GadgetParams w) (hg : g.Valid) (n dim : ℕ) (hn : n ≤ dim) (lk : ℕ → BitVec w)
    (A : ℕ) (hA : ∀ i, wabs (lk i) ≤ A)
    (mask : ℕ → ℕ → Fin n → BitVec w) (noise : ℕ → ℕ → BitVec w) (B : ℕ)
    (hB : ∀ i j, j < g.level → wabs (noise i j) ≤ B) (ct : ℕ → BitVec w) :
    wabs (lphase n lk (ext0 (defaultKeySwitch (scalarGadget g) n dim
        (fun i => encryptLevScalar g (lweKeyS n lk) (mask i) (noise i) (lk (n + i))) ct))
      - lphase dim lk ct) ≤ ksBoundS g A (dim - n) B := by
  set ksk := fun i => encryptLevScalar g (lweKeyS n lk) (mask i) (noise i) (lk (n + i)) with hksk
  have hG := scalarGadget_bounded g hg
  have e0 : ∀ c : Fin (n + 1) → BitVec w, lphase n lk (ext0 c) = phase (lweKeyS n lk) c := by
    intro c
    rw [← phase_lweKeyS]
    congr 1
    funext t
    unfold ext0
    rw [dif_pos t.2]
  rw [e0]
  unfold defaultKeySwitch
  obtain ⟨m, rfl⟩ : ∃ m, dim = n + m := ⟨dim - n, by omega⟩
  rw [Nat.add_sub_cancel_left]
  clear hn
  induction m with
  | zero =>
    simp only [List.range'_zero, List.foldl_nil, Nat.add_zero]
    rw [phase_lweKeyS, sub_self, wabs_zero]
    exact Nat.zero_le _
  | succ m ih =>
    rw [List.range'_concat, List.foldl_append, List.foldl_cons, List.foldl_nil]
    set out := (List.range' n m).foldl (fun out i => gadgetProdAdd (scalarGadget g).level out (ksk (i - n))
      ((scalarGadget g).dec (ct (i + 1)))) (fun t : Fin (n + 1) => ct t) with hout
    rw [show n + 1 * m = n + m by omega, Nat.add_sub_cancel_left, gadgetProdAdd_eq]
    set a := ct (n + m + 1)
    have hlev : IsLev (scalarGadget g) (lweKeyS n lk) (lk (n + m)) (ksk m) (noise m) :=
      isLev_encrypt g _ _ _ _
    have e1 := phase_add (lweKeyS n lk) out
      (fun t => ∑ j ∈ Finset.range (scalarGadget g).level, (scalarGadget g).dec a j * ksk m j t)
    have e2 := phase_lin (Finset.range (scalarGadget g).level) (lweKeyS n lk) ((scalarGadget g).dec a) (ksk m)
    rw [sum_dec_lev _ _ _ _ _ hlev] at e2
    have e3 : lphase (n + (m + 1)) lk ct = lphase (n + m) lk ct + lk (n + m) * a := by
      unfold lphase
      rw [← add_assoc n m 1, Finset.sum_range_succ, ← add_assoc, mul_comm a]
    have e4 : phase (lweKeyS n lk) (fun t => out t + ∑ j ∈ Finset.range (scalarGadget g).level,
          (scalarGadget g).dec a j * ksk m j t) - lphase (n + (m + 1)) lk ct
        = (phase (lweKeyS n lk) out - lphase (n + m) lk ct)
          + (lk (n + m) * (scalarGadget g).eps a
            + ∑ j ∈ Finset.range (scalarGadget g).level, (scalarGadget g).dec a j * noise m j) := by
      have : phase (lweKeyS n lk) (fun t => out t + ∑ j ∈ Finset.range (scalarGadget g).level,
          (scalarGadget g).dec a j * ksk m j t) = _ := e1
      rw [this, e2, e3]
      ring
    rw [e4]
    have b1 : wabs (lk (n + m) * (scalarGadget g).eps a) ≤ A * (2 ^ (w - g.level * g.logBase) / 2) :=
      (wabs_mul_le _ _).trans (Nat.mul_le_mul (hA _) (hG.eps_le a))
    have b2 : wabs (∑ j ∈ Finset.range (scalarGadget g).level, (scalarGadget g).dec a j * noise m j)
        ≤ g.level * (g.base.toNat / 2 * B) := by
      have h := (wordNorm w).sum_le_card (Finset.range (scalarGadget g).level)
        (fun j => (scalarGadget g).dec a j * noise m j) (g.base.toNat / 2 * B) (fun j hj => by
          have hj' := Finset.mem_range.1 hj
          exact (wabs_mul_le _ _).trans (Nat.mul_le_mul (hG.dec_le a j hj') (hB m j hj')))
      rwa [Finset.card_range] at h
    refine (wabs_add_le _ _).trans ((Nat.add_le_add ih ((wabs_add_le _ _).trans (Nat.add_le_add b1 b2))).trans ?_)
    unfold ksBoundS
    apply le_of_eq
    ring

/-! ### The index -/

/-- `r` is `X * 2N / 2^w` on the circle, up to `η`. -/
def Near (w N : ℕ) (r X : ℤ) (η : ℚ) : Prop := ∃ q : ℤ, |((r : ℤ) + 2 * N * q : ℚ) - X * (2 * N) / 2 ^ w| ≤ η

theorem Near.add {r X r' X' : ℤ} {η η' : ℚ} (h : Near w N r X η) (h' : Near w N r' X' η') :
    Near w N (r + r') (X + X') (η + η') := by
  obtain ⟨q, hq⟩ := h
  obtain ⟨q', hq'⟩ := h'
  refine ⟨q + q', ?_⟩
  have : ((r + r' : ℤ) + 2 * N * (q + q' : ℤ) : ℚ) - (X + X' : ℤ) * (2 * N) / 2 ^ w
      = ((r : ℤ) + 2 * N * q - X * (2 * N) / 2 ^ w) + ((r' : ℤ) + 2 * N * q' - X' * (2 * N) / 2 ^ w) := by
    push_cast; ring
  rw [this]
  exact (abs_add_le _ _).trans (add_le_add hq hq')

theorem Near.mul {r X : ℤ} {η : ℚ} (h : Near w N r X η) (s : ℤ) : Near w N (r * s) (X * s) (|s| * η) := by
  obtain ⟨q, hq⟩ := h
  refine ⟨q * s, ?_⟩
  have : ((r * s : ℤ) + 2 * N * (q * s : ℤ) : ℚ) - (X * s : ℤ) * (2 * N) / 2 ^ w
      = s * ((r : ℤ) + 2 * N * q - X * (2 * N) / 2 ^ w) := by
    push_cast; ring
  rw [this, abs_mul, ← Int.cast_abs]
  exact mul_le_mul_of_nonneg_left hq (by positivity)

theorem Near.shift {r X Y : ℤ} {η : ℚ} (h : Near w N r X η) (hXY : (2 ^ w : ℤ) ∣ X - Y) : Near w N r Y η := by
  obtain ⟨q, hq⟩ := h
  obtain ⟨c, hc⟩ := hXY
  refine ⟨q - c, ?_⟩
  have hX : (X : ℚ) = Y + 2 ^ w * c := by
    have : X = Y + 2 ^ w * c := by linarith
    exact_mod_cast this
  have hw : (2 : ℚ) ^ w ≠ 0 := by positivity
  have e : ((r : ℤ) + 2 * N * (q - c : ℤ) : ℚ) - Y * (2 * N) / 2 ^ w = (r : ℤ) + 2 * N * q - X * (2 * N) / 2 ^ w := by
    rw [hX]; push_cast; field_simp; ring
  rw [e]; exact hq

theorem near_switch (hN0 : 0 < N) (hN : 2 * N ≤ 2 ^ 53) (x : BitVec w) :
    Near w N (-(switch w N (-x) : ℤ)) x.toNat (switchErr N + 1) := by
  obtain ⟨_, q, h⟩ := C16_modSwitch w N hN0 hN (-x)
  have h1 : Near w N (modSwitch w N (-x)) (-x).toNat (switchErr N) := ⟨q, by rw [Int.cast_natCast (-x).toNat]; exact h⟩
  have h2 : Near w N (switch w N (-x)) (-x).toNat (switchErr N + 1) := by
    have : Near w N ((switch w N (-x) : ℤ) - modSwitch w N (-x)) 0 1 := by
      refine ⟨0, ?_⟩
      rcases (switch_odd w N hN0 (-x)).2.2 with h | h <;> rw [h] <;> simp
    have := h1.add this
    rwa [add_sub_cancel, add_zero] at this
  have h3 := h2.mul (-1)
  simp only [mul_neg, mul_one, abs_neg, abs_one, Int.cast_one, one_mul] at h3
  refine h3.shift ?_
  have : (2 ^ w : ℕ) ∣ (-x).toNat + x.toNat := by
    have h0 : -x + x = 0 := neg_add_cancel x
    have := congrArg BitVec.toNat h0
    rw [BitVec.toNat_add] at this
    exact Nat.dvd_of_mod_eq_zero (by simpa using this)
  have h' : (2 ^ w : ℤ) ∣ ((-x).toNat : ℤ) + x.toNat := by exact_mod_cast this
  rw [show -((-x).toNat : ℤ) - x.toNat = -(((-x).toNat : ℤ) + x.toNat) by ring]
  exact (dvd_neg).2 h'

/-- The sum of the sizes of the elements of the key. -/
def weightS (n : ℕ) (lk : ℕ → BitVec w) : ℕ := ∑ i ∈ Finset.range n, wabs (lk i)

theorem near_rotExpS (hN0 : 0 < N) (hN : 2 * N ≤ 2 ^ 53) (n : ℕ) (lk : ℕ → BitVec w) (ct : ℕ → BitVec w) :
    Near w N (-rotExpS N n (fun i => (lk i).toInt) ct) (lphase n lk ct).toNat
      ((1 + weightS n lk) * (switchErr N + 1)) := by
  induction n with
  | zero =>
    have := near_switch hN0 hN (ct 0)
    simpa [rotExpS, lphase, weightS] using this
  | succ n ih =>
    have h := ih.add ((near_switch hN0 hN (ct (n + 1))).mul (lk n).toInt)
    have e1 : -rotExpS N (n + 1) (fun i => (lk i).toInt) ct
        = -rotExpS N n (fun i => (lk i).toInt) ct + -(switch w N (-ct (n + 1)) : ℤ) * (lk n).toInt := by
      unfold rotExpS
      rw [Finset.sum_range_succ]; ring
    have e2 : ((1 + weightS (n + 1) lk : ℕ) : ℚ) * (switchErr N + 1)
        = (1 + weightS n lk : ℕ) * (switchErr N + 1) + ((|(lk n).toInt| : ℤ) : ℚ) * (switchErr N + 1) := by
      unfold weightS
      rw [Finset.sum_range_succ]
      have : ((|(lk n).toInt| : ℤ) : ℚ) = (wabs (lk n) : ℚ) := by
        unfold wabs; rw [Nat.cast_natAbs]
      rw [this]; push_cast; ring
    push_cast at e2
    rw [e1, e2]
    push_cast at h
    refine h.shift ?_
    have e3 : lphase (n + 1) lk ct = lphase n lk ct + ct (n + 1) * lk n := by
      unfold lphase; rw [Finset.sum_range_succ, ← add_assoc]
    have e4 : BitVec.ofInt w ((lphase n lk ct).toNat + (ct (n + 1)).toNat * (lk n).toInt)
        = BitVec.ofInt w ((lphase (n + 1) lk ct).toNat) := by
      rw [BitVec.ofInt_add, BitVec.ofInt_mul, BitVec.ofInt_toInt, BitVec.ofInt_natCast, BitVec.ofInt_natCast,
        BitVec.ofInt_natCast, BitVec.ofNat_toNat, BitVec.ofNat_toNat, BitVec.ofNat_toNat, e3]
      simp
    have e5 := congrArg BitVec.toInt e4
    rw [BitVec.toInt_ofInt, BitVec.toInt_ofInt] at e5
    have e7 : ((lphase n lk ct).toNat + (ct (n + 1)).toNat * (lk n).toInt : ℤ) % ((2 ^ w : ℕ) : ℤ)
        = ((lphase (n + 1) lk ct).toNat : ℤ) % ((2 ^ w : ℕ) : ℤ) := by
      rw [← Int.bmod_emod, e5, Int.bmod_emod]
    have := Int.dvd_of_emod_eq_zero (Int.emod_eq_emod_iff_emod_sub_eq_zero.1 e7)
    rwa [Nat.cast_pow, Nat.cast_ofNat] at this
end

/-! ### The keys -/

section
variable {w N n : ℕ} [NeZero N]

theorem isGSW_fhewKey (g : GadgetParams w) (sk : Fin (n + 1) → Poly N (BitVec w))
    (mask err : Fin (n + 1 + 1) → ℕ → Fin (n + 1) → Poly N (BitVec w)) (noise : Fin (n + 1 + 1) → ℕ → Poly N (BitVec w))
    (s : BitVec w) :
    IsGSW (polyGadget N g) sk (mono N (BitVec w) s.toInt) (genBlindRotateKeyElem g sk mask err noise s)
      (fun i j => noise i j - ∑ t, err i j t) := by
  refine ⟨?_, fun i => ?_⟩
  · have := isLev_encryptGLev g sk (mask 0) (err 0) (noise 0) (mono N (BitVec w) s.toInt * 1)
    rw [mul_one] at this
    unfold genBlindRotateKeyElem
    rw [mul_one]
    exact this
  · exact isLev_encryptGLev g sk _ _ _ _

theorem subst_congr {d d' : ℤ} (h : d % (2 * N) = d' % (2 * N)) (p : Poly N (BitVec w)) : subst d p = subst d' p := by
  unfold subst
  refine Finset.sum_congr rfl fun i _ => ?_
  congr 1
  apply mono_congr
  rw [Int.mul_emod, h, ← Int.mul_emod]

/-- The degree of Galois key `i`, as a word. -/
theorem galDegree_spec (hN : N ≤ 2 ^ 30) (i : ℕ) : ∃ d : ℤ, galDegree N i = some d ∧
    (0 < i → modExp true 64 5 i (2 * N : ℕ) = some d) ∧ (i = 0 → d = -5) ∧
    (BitVec.ofInt 64 d).toInt = d ∧ d % 2 = 1 ∧ d % (2 * N) = (if i = 0 then -5 else 5 ^ i) % (2 * N) ∧
    BitVec.ofInt 64 d &&& 1 ≠ 0 := by
  have hN0 := NeZero.pos N
  have hodd : ∀ x : BitVec 64, x.toInt % 2 = 1 → x &&& 1 ≠ 0 := fun x hx h => by
    have := (odd_toInt x).1 h
    omega
  by_cases hi : i = 0
  · subst hi
    exact ⟨-5, rfl, fun h => absurd h (by omega), fun _ => rfl, by decide, by decide, by rw [if_pos rfl], by decide⟩
  · have hN' : (N : ℤ) ≤ 2 ^ 30 := by exact_mod_cast hN
    have hmod := (C43_modExp_partial 64 5 i (2 * N : ℕ) (by push_cast; omega) (by omega)).1 (by push_cast; nlinarith)
    rw [Int.toNat_natCast] at hmod
    set d : ℤ := 5 ^ i % ((2 * N : ℕ) : ℤ) with hd
    have hd0 : 0 ≤ d := Int.emod_nonneg _ (by push_cast; omega)
    have hdlt : d < 2 * N := by
      have := Int.emod_lt_of_pos (5 ^ i : ℤ) (b := ((2 * N : ℕ) : ℤ)) (by push_cast; omega)
      rw [← hd] at this
      push_cast at this
      exact this
    have hd2 : d % 2 = 1 := by
      rw [hd, Int.emod_emod_of_dvd _ ⟨(N : ℤ), by push_cast; rfl⟩]
      exact five_pow_odd i
    have htoInt : (BitVec.ofInt 64 d).toInt = d := by
      rw [BitVec.toInt_ofInt]
      apply Int.bmod_eq_of_le <;> norm_num <;> omega
    refine ⟨d, ?_, fun _ => hmod, fun h => absurd h hi, htoInt, hd2, ?_, hodd _ (by rw [htoInt]; exact hd2)⟩
    · unfold galDegree; rw [if_neg hi]; exact hmod
    · rw [if_neg hi, hd]; push_cast; rw [Int.emod_emod_of_dvd _ dvd_rfl]

/-- `GenGaloisKey` does not panic and makes the keys `0, ..., windowSize`. -/
theorem genGaloisKey_spec (hN : N ≤ 2 ^ 30) (g : GadgetParams w) (window : ℕ) (sk : Fin (n + 1) → Poly N (BitVec w))
    (ρ : ℕ → KeyRand (Poly N (BitVec w)) (n + 1) (n + 1)) :
    ∃ gal, genGaloisKey g window sk ρ = some gal ∧ gal.length = window + 1 ∧ ∀ i, i ≤ window → ∀ d : ℤ,
      galDegree N i = some d → ∃ key, gal[i]? = some key ∧ key.g = g ∧
        IsGalKey sk (BitVec.ofInt 64 d) key (fun a b => (ρ i).noise a b - ∑ l, (ρ i).err a b l) := by
  choose d h1 h2 h3 h4 h5 h6 h7 using galDegree_spec (N := N) hN
  refine ⟨_, mapM_some _ _ (fun i => ⟨g, genGLWEKeySwitchKey g sk (ρ i).mask (ρ i).err (ρ i).noise
      (fun j => Poly.subst (BitVec.ofInt 64 (d i)).toInt (sk j))⟩) (fun i _ => ?_), by simp, fun i hi d' hd' => ?_⟩
  · rw [h1]
    simp only [Option.bind_some]
    rw [if_neg (h7 i)]
  · obtain rfl : d i = d' := Option.some_injective _ ((h1 i).symm.trans hd')
    refine ⟨⟨g, genGLWEKeySwitchKey g sk (ρ i).mask (ρ i).err (ρ i).noise
      (fun j => Poly.subst (BitVec.ofInt 64 (d i)).toInt (sk j))⟩, ?_, rfl, fun j => isLev_encryptGLev g sk _ _ _ _⟩
    rw [List.getElem?_map, List.getElem?_range (by omega)]
    rfl
end

/-- Everything the statements below quantify over: the parameters, the secret key, the samples of key generation, and
bounds.  `dim` is the small LWE dimension. -/
structure FBoot (w N n : ℕ) where
  /-- gadget of the blind rotation key and the Galois keys -/
  gbr : GadgetParams w
  /-- gadget of the key-switching key -/
  gks : GadgetParams w
  window : ℕ
  dim : ℕ
  /-- message modulus -/
  p : BitVec w
  /-- scale -/
  s : BitVec w
  /-- secret key -/
  lk : ℕ → BitVec w
  brMask : ℕ → Fin (n + 1 + 1) → ℕ → Fin (n + 1) → Poly N (BitVec w)
  brErr : ℕ → Fin (n + 1 + 1) → ℕ → Fin (n + 1) → Poly N (BitVec w)
  brNoise : ℕ → Fin (n + 1 + 1) → ℕ → Poly N (BitVec w)
  gal : ℕ → KeyRand (Poly N (BitVec w)) (n + 1) (n + 1)
  ksMask : ℕ → ℕ → Fin dim → BitVec w
  ksNoise : ℕ → ℕ → BitVec w
  /-- bound on the elements of the secret key -/
  A : ℕ
  /-- bound on the noise of the blind rotation key and the Galois keys (with the Fourier errors) -/
  B : ℕ
  /-- bound on the noise of the key-switching key -/
  Bks : ℕ
  /-- bound on the Fourier errors of blind rotation -/
  Fe : ℕ

namespace FBoot
variable {w N n : ℕ} [NeZero N] (b : FBoot w N n)

/-- The parameters are as `Compile` leaves them, and the secret key and the noise are bounded. -/
structure KeyValid : Prop where
  w1 : 1 ≤ w
  logN : ∃ l : ℕ, N = 2 ^ l
  N30 : N ≤ 2 ^ 30
  gbr : b.gbr.Valid
  gks : b.gks.Valid
  window : 0 < b.window
  dim : b.dim ≤ (n + 1) * N
  key : ∀ i, wabs (b.lk i) ≤ b.A
  brNoise : ∀ j i l, pabs (b.brNoise j i l - ∑ t, b.brErr j i l t) ≤ b.B
  galNoise : ∀ t i j, pabs ((b.gal t).noise i j - ∑ l, (b.gal t).err i j l) ≤ b.B
  ksNoise : ∀ i j, j < b.gks.level → wabs (b.ksNoise i j) ≤ b.Bks

/-- The same with the message modulus and the scale, which are used by the tables of functions. -/
structure Valid : Prop extends b.KeyValid where
  p0 : b.p ≠ 0
  pw : 2 * b.p.toNat < 2 ^ w
  p52 : b.p.toNat ≤ 2 ^ 52
  pL : b.p.toNat * (1 * N) ≤ 2 ^ 51
  scale : compileScale w b.p.toNat = some b.s.toNat

/-- The GLWE key. -/
def sk : Fin (n + 1) → Poly N (BitVec w) := glweKeyS N (n + 1) b.lk
/-- `GenBlindRotateKey`. -/
def brk : ℕ → Fin (n + 1 + 1) → ℕ → Fin (n + 1 + 1) → Poly N (BitVec w) := fun j =>
  genBlindRotateKeyElem b.gbr b.sk (b.brMask j) (b.brErr j) (b.brNoise j) (b.lk j)
/-- `GenDefaultKeySwitchKey`. -/
def ksk : ℕ → ℕ → Fin (b.dim + 1) → BitVec w := fun i =>
  encryptLevScalar b.gks (lweKeyS b.dim b.lk) (b.ksMask i) (b.ksNoise i) (b.lk (b.dim + i))
/-- The evaluation key; `none` is a panic. -/
def keys : Option (Keys w N n) := (genGaloisKey b.gbr b.window b.sk b.gal).map fun gal => ⟨b.gbr, b.window, b.brk, gal⟩

/-- Loss of decomposition. -/
def E : ℕ := 2 ^ (w - b.gbr.level * b.gbr.logBase) / 2
/-- Noise of a product with a key element. -/
def X : ℕ := 1 * (b.E * (1 + (n + 1) * (N * b.A))) + (n + 1 + 1) * (b.gbr.level * (N * (b.gbr.base.toNat / 2 * b.B))) + b.Fe
/-- Noise of an automorphism. -/
def Y : ℕ := (n + 1) * (N * b.A * b.E) + (n + 1) * (b.gbr.level * (N * (b.gbr.base.toNat / 2 * b.B))) + b.Fe

/-- Noise of the output of blind rotation: every element of the key takes one product and at most one automorphism, and
the windows take `2 ((N/2 - 1) / window + 1) + 1` more. -/
def brOut : ℕ := b.dim * (b.X + b.Y) + (2 * ((N / 2 - 1) / b.window + 1) + 1) * b.Y
/-- Noise added by key switching. -/
def ksOut : ℕ := ksBoundS b.gks b.A ((n + 1) * N - b.dim) b.Bks
/-- The part of the input window that modulus switching and the scale take. -/
def loss : ℚ := (1 + weightS b.dim b.lk) * (switchErr N + 1)
  + N * |(2 : ℚ) ^ w - 2 * b.p.toNat * b.s.toNat| / 2 ^ w + 1

/-- The dimension of default ciphertexts (`DefaultLWEDimension`).  tfhe/params.go:490-495. -/
def ctDim : BootstrapOrder → ℕ
  | .ksBr => (n + 1) * N
  | .brKs => b.dim
/-- The noise that blind rotation sees. -/
def inNoise : BootstrapOrder → ℕ → ℕ
  | .ksBr, e => e + b.ksOut
  | .brKs, e => e
/-- The noise of the result. -/
def outNoise : BootstrapOrder → ℕ
  | .ksBr => b.brOut
  | .brKs => b.brOut + b.ksOut

/-- Fourier errors in the bound. -/
def ErrOk (err : Errs w N n) : Prop :=
  (∀ j, pabs (phase b.sk (err.ext j)) ≤ b.Fe) ∧ ∀ h i p, pabs (phase b.sk (err.perm h i p)) ≤ b.Fe

/-- The keys of key generation satisfy what the loops need. -/
theorem rotOk (hb : b.KeyValid) : ∃ K, b.keys = some K ∧ K.window = b.window ∧
    ∀ (err : Errs w N n), b.ErrOk err → ∀ out pb, pb ≠ out →
      RotOk K b.sk (fun i => (b.lk i).toInt) b.dim err out pb b.X b.Y := by
  obtain ⟨logN, hN⟩ := hb.logN
  obtain ⟨gal, hgal, -, hkeys⟩ := genGaloisKey_spec hb.N30 b.gbr b.window b.sk b.gal
  refine ⟨⟨b.gbr, b.window, b.brk, gal⟩, by unfold keys; rw [hgal]; rfl, rfl, fun err herr out pb hpb => ?_⟩
  -- one automorphism
  have perm : ∀ i, i ≤ b.window → ∀ d : ℤ, galDegree N i = some d → (BitVec.ofInt 64 d).toInt = d → d % 2 = 1 →
      BitVec.ofInt 64 d &&& 1 ≠ 0 → ∀ ferr, pabs (phase b.sk ferr) ≤ b.Fe → ∀ m, ∃ m',
        permuteTo (fun _ => gal[i]?) out out pb (BitVec.ofInt 64 d) ferr m = some m' ∧
        pabs (phase b.sk (ctOf (n + 1) m' out) - subst d (phase b.sk (ctOf (n + 1) m out))) ≤ b.Y ∧
        ∀ v i, v ≠ out → v ≠ pb → m' v i = m v i := by
    intro i hi d hd htoInt hd2 hand ferr hferr m
    obtain ⟨key, hk1, hk2, hk3⟩ := hkeys i hi d hd
    have hg : key.g.Valid := by rw [hk2]; exact hb.gbr
    obtain ⟨m', p1, p2, p3⟩ := C36_permute (fun _ => gal[i]?) b.sk out out pb hpb _ hand key hk1 hg _ hk3 ferr m
    refine ⟨m', p1, ?_, p3⟩
    rw [htoInt] at p2
    rw [p2, add_sub_cancel_left]
    have hS : ∀ (i : Fin (n + 1)) (x : Poly N (BitVec w)),
        pabs (x * Poly.subst (BitVec.ofInt 64 d).toInt (b.sk i)) ≤ N * b.A * pabs x := by
      intro i x
      have h1 : pabs (Poly.subst (BitVec.ofInt 64 d).toInt (b.sk i)) ≤ b.A := by
        rw [htoInt]
        exact (pabs_subst_le logN hN d hd2 _).trans ((pabs_le_iff _ _).2 fun j => hb.key _)
      refine (pabs_mul_le _ _).trans ?_
      rw [mul_assoc, mul_comm b.A]
      exact Nat.mul_le_mul_left _ (Nat.mul_le_mul_left _ h1)
    have := C36_permNoise_le b.sk (BitVec.ofInt 64 d) key hg _ ferr
      (fun i => Poly.subst d (ctOf (n + 1) m out i)) (N * b.A) b.B b.Fe hS (fun a j _ => hb.galNoise i a j) hferr
    rw [hk2] at this
    exact this
  refine ⟨?_, ?_, ?_⟩
  · intro j _ m
    show pabs (phase b.sk (ctOf (n + 1) (externalProdTo (polyGadget N b.gbr) (n + 1) out (genBlindRotateKeyElem b.gbr
      b.sk (b.brMask j) (b.brErr j) (b.brNoise j) (b.lk j)) out (err.ext j) m) out) - _) ≤ _
    rw [(C13_externalProd (polyGadget N b.gbr) hb.gbr.level_pos b.sk _ _ _
      (isGSW_fhewKey b.gbr b.sk (b.brMask j) (b.brErr j) (b.brNoise j) (b.lk j)) out out (err.ext j) m).1,
      add_sub_cancel_left]
    have := C13_noise_le (polyNorm N w) (polyGadget N b.gbr) (polyGadget_bounded b.gbr hb.gbr) b.sk
      (mono N (BitVec w) (b.lk j).toInt) (fun i l => b.brNoise j i l - ∑ t, b.brErr j i l t) (ctOf (n + 1) m out)
      (err.ext j) 1 (N * b.A) b.B b.Fe
      (fun x => by rw [one_mul]; exact (pabs_mono_mul _ _).le) (pabs_mul_keyS b.lk b.A hb.key)
      (fun i l _ => hb.brNoise j i l) (herr.1 j)
    exact this
  · intro h i p skip hs0 hs m
    obtain ⟨d, d1, d2, -, d4, d5, d6, d7⟩ := galDegree_spec (N := N) hb.N30 skip
    obtain ⟨m', q1, q2, q3⟩ := perm skip hs d d1 d4 d5 d7 _ (herr.2 h i p) m
    refine ⟨m', ?_, ?_, q3⟩
    · unfold flush
      rw [d2 hs0]
      exact q1
    · rw [if_neg (by omega)] at d6
      rwa [subst_congr d6] at q2
  · intro m
    exact perm 0 (by omega) (-5) rfl (by decide) (by decide) (by decide) _ (herr.2 _ _ _) m

/-- `BlindRotateTo` with the keys of key generation and the index map of `NewFHEWEvaluator`. -/
def rotate (err : Errs w N n) (out pb : ℕ) (ct : ℕ → BitVec w) (lut : Poly N (BitVec w))
    (m : Mem (Poly N (BitVec w))) : Option (Mem (Poly N (BitVec w))) :=
  b.keys.bind fun K => (autIdxMap N).bind fun aut => blindRotateTo K b.dim aut err out pb ct lut m

/-- `BootstrapLUTTo` with these. -/
def runLUT (order : BootstrapOrder) (err : Errs w N n) (rot pb : ℕ) (buf old ct : ℕ → BitVec w)
    (lut : Poly N (BitVec w)) (m : Mem (Poly N (BitVec w))) : Option (ℕ → BitVec w) :=
  b.keys.bind fun K => (autIdxMap N).bind fun aut =>
    bootstrapLUT order K (scalarGadget b.gks) b.dim b.ksk aut err rot pb buf old ct lut m

/-- `BootstrapFuncTo` with these. -/
def run (order : BootstrapOrder) (raw : List (BitVec w)) (err : Errs w N n) (rot pb : ℕ) (buf old ct : ℕ → BitVec w)
    (F : ℕ → BitVec 64) (m : Mem (Poly N (BitVec w))) : Option (ℕ → BitVec w) :=
  b.keys.bind fun K => (autIdxMap N).bind fun aut =>
    bootstrapFunc order K (scalarGadget b.gks) b.dim b.ksk aut b.p b.s raw err rot pb buf old ct F m
end FBoot
end Fhew

section
variable {w N n : ℕ} [NeZero N] (b : Fhew.FBoot w N n)
open Fhew

/-- **C39 (index map).** For every power of two the map of `NewFHEWEvaluator` exists, and maps every odd number below `2N`
to an exponent of five with a sign that gives this number modulo `2N`; `2N` stands for `-1`. -/
theorem C39_autIdxMap (logN : ℕ) : ∃ l, autIdxMap (2 ^ logN) = some l ∧ l.length = 2 * 2 ^ logN ∧
    ∀ a, a % 2 = 1 → a < 2 * 2 ^ logN → ∃ v, l[a]? = some v ∧ AutRel (2 ^ logN) a v :=
  autIdxMap_spec logN

/-- **C39 (rotation).** With the keys of key generation, for every window size, any ciphertext, table, Fourier errors in the
bound and contents of the memory: the rotation does not panic (in particular it uses only keys that exist), the phase
of the result is the table times `X^(b' + sum a'_i s_i)` up to `brOut`, where `b'` and `a'_i` are the switched negated
elements of the ciphertext, and only the output and the buffer change. -/
theorem C39_blindRotate (hb : b.KeyValid) (err : Errs w N n) (herr : b.ErrOk err) (out pb : ℕ) (hpb : pb ≠ out)
    (ct : ℕ → BitVec w) (lut : Poly N (BitVec w)) (m : Mem (Poly N (BitVec w))) :
    ∃ m', b.rotate err out pb ct lut m = some m' ∧
      pabs (phase b.sk (ctOf (n + 1) m' out)
        - mono N (BitVec w) (rotExpS N b.dim (fun i => (b.lk i).toInt) ct) * lut) ≤ b.brOut ∧
      ∀ v i, v ≠ out → v ≠ pb → m' v i = m v i := by
  obtain ⟨logN, hN⟩ := hb.logN
  obtain ⟨K, hK, hwin, hok⟩ := b.rotOk hb
  obtain ⟨aut, haut, -⟩ := autIdxMap_spec logN
  rw [← hN] at haut
  have h := rotate_of_ok logN hN (hok err herr out pb hpb) (by rw [hwin]; exact hb.window) aut haut ct lut m
  rw [hwin] at h
  obtain ⟨m', h1, h2⟩ := h
  refine ⟨m', ?_, h2⟩
  unfold FBoot.rotate
  rw [hK, haut]
  exact h1

/-- **C39 (exponent).** The exponent is the scaled phase: minus it is at most `(1 + sum |s_i|) (switchErr N + 1)` away
from `phase * 2N / Q` on the circle. -/
theorem C39_exponent (hN : 2 * N ≤ 2 ^ 53) (dim : ℕ) (lk ct : ℕ → BitVec w) :
    ∃ q : ℤ, |((-rotExpS N dim (fun i => (lk i).toInt) ct : ℤ) + 2 * N * q : ℚ)
      - (phase (lweKeyS dim lk) (fun t => ct t)).toNat * (2 * N) / 2 ^ w| ≤ (1 + weightS dim lk) * (switchErr N + 1) := by
  have := near_rotExpS (NeZero.pos N) hN dim lk ct
  unfold Near at this
  rw [phase_lweKeyS]
  simpa only [Int.cast_natCast] using this

theorem fhew_rotate_const (hb : b.KeyValid) (err : Errs w N n) (herr : b.ErrOk err) (out pb : ℕ) (hpb : pb ≠ out)
    (ct : ℕ → BitVec w) (lut : Poly N (BitVec w)) (m : Mem (Poly N (BitVec w))) :
    ∃ m', b.rotate err out pb ct lut m = some m' ∧
      wabs (at' (phase b.sk (ctOf (n + 1) m' out)) 0 - at' lut (-rotExpS N b.dim (fun i => (b.lk i).toInt) ct))
        ≤ b.brOut := by
  obtain ⟨m', h1, h2, -⟩ := C39_blindRotate b hb err herr out pb hpb ct lut m
  refine ⟨m', h1, le_trans ?_ h2⟩
  have := wabs_at_le (phase b.sk (ctOf (n + 1) m' out)
    - mono N (BitVec w) (rotExpS N b.dim (fun i => (b.lk i).toInt) ct) * lut) 0
  rwa [at_sub, at_mono_mul, zero_sub] at this

/-- How far the index can be from the phase, in index units. -/
def Fhew.FBoot.indexErr : BootstrapOrder → ℚ
  | .ksBr => (b.ksOut : ℚ) * (2 * N) / 2 ^ w + (1 + weightS b.dim b.lk) * (switchErr N + 1)
  | .brKs => (1 + weightS b.dim b.lk) * (switchErr N + 1)

/-- Both orders of bootstrapping, for a rotation that is known. -/
theorem fhew_bootstrap (order : BootstrapOrder) (hb : b.KeyValid) (err : Errs w N n) (herr : b.ErrOk err)
    (rot pb : ℕ) (hpb : pb ≠ rot) (buf old ct : ℕ → BitVec w) (lut : Poly N (BitVec w)) (m : Mem (Poly N (BitVec w))) :
    ∃ res ct', b.runLUT order err rot pb buf old ct lut m = some res ∧
      wabs (lphase b.dim b.lk ct' - lphase (b.ctDim order) b.lk ct) ≤ b.inNoise order 0 ∧
      wabs (lphase (b.ctDim order) b.lk res - at' lut (-rotExpS N b.dim (fun i => (b.lk i).toInt) ct'))
        ≤ b.outNoise order := by
  have hks := fun ct => defaultKeySwitch_lphase b.gks hb.gks b.dim ((n + 1) * N) hb.dim b.lk b.A hb.key b.ksMask
    b.ksNoise b.Bks hb.ksNoise ct
  unfold FBoot.runLUT Fhew.bootstrapLUT
  obtain ⟨K, hK, -⟩ := b.rotOk hb
  obtain ⟨logN, hN⟩ := hb.logN
  obtain ⟨aut, haut, -⟩ := autIdxMap_spec logN
  rw [← hN] at haut
  cases order with
  | ksBr =>
    set ctk := ext0 (defaultKeySwitch (scalarGadget b.gks) b.dim ((n + 1) * N) b.ksk ct) with hctk
    obtain ⟨m', h1, h2⟩ := fhew_rotate_const b hb err herr rot pb hpb ctk lut m
    unfold FBoot.rotate at h1
    rw [hK, haut] at h1 ⊢
    simp only [Option.bind_some] at h1 ⊢
    refine ⟨_, ctk, by rw [h1]; rfl, ?_, ?_⟩
    · show _ ≤ 0 + b.ksOut
      rw [Nat.zero_add]
      exact hks ct
    · show wabs (lphase ((n + 1) * N) b.lk (asLWECiphertext (ctOf (n + 1) m' rot) _ old) - _) ≤ b.brOut
      rw [extract_lphase]
      exact h2
  | brKs =>
    obtain ⟨m', h1, h2⟩ := fhew_rotate_const b hb err herr rot pb hpb ct lut m
    unfold FBoot.rotate at h1
    rw [hK, haut] at h1 ⊢
    simp only [Option.bind_some] at h1 ⊢
    refine ⟨_, ct, by rw [h1]; rfl, ?_, ?_⟩
    · rw [show b.ctDim .brKs = b.dim from rfl, sub_self, wabs_zero]; exact Nat.zero_le _
    · set c := asLWECiphertext (ctOf (n + 1) m' rot) ⟨0, NeZero.pos N⟩ buf with hc
      show wabs (lphase b.dim b.lk (ext0 (defaultKeySwitch (scalarGadget b.gks) b.dim ((n + 1) * N) b.ksk c)) - _)
        ≤ b.brOut + b.ksOut
      have h3 : lphase ((n + 1) * N) b.lk c = _ := extract_lphase b.lk (ctOf (n + 1) m' rot) buf
      rw [← sub_add_sub_cancel _ (lphase ((n + 1) * N) b.lk c), add_comm b.brOut]
      refine (wabs_add_le _ _).trans (Nat.add_le_add (hks c) ?_)
      rw [h3]
      exact h2

/-- **C39 (any table).** `BootstrapLUT` returns an encryption of the table at an index that is the scaled phase up to
`indexErr`, with noise at most `outNoise`.  Any table, both orders, every window size. -/
theorem C39_lut (order : BootstrapOrder) (hb : b.KeyValid) (err : Errs w N n) (herr : b.ErrOk err)
    (rot pb : ℕ) (hpb : pb ≠ rot) (buf old ct : ℕ → BitVec w) (lut : Poly N (BitVec w)) (m : Mem (Poly N (BitVec w)))
    (X : ℤ) (hct : phase (lweKeyS (b.ctDim order) b.lk) (fun t => ct t) = BitVec.ofInt w X) :
    ∃ res, b.runLUT order err rot pb buf old ct lut m = some res ∧
      ∃ z : ℤ, |(z : ℚ) - X * (2 * N) / 2 ^ w| ≤ b.indexErr order ∧
        wabs (phase (lweKeyS (b.ctDim order) b.lk) (fun t => res t) - at' lut z) ≤ b.outNoise order := by
  rw [phase_lweKeyS] at hct
  obtain ⟨res, ct', h1, h2, h3⟩ := fhew_bootstrap b order hb err herr rot pb hpb buf old ct lut m
  refine ⟨res, h1, ?_⟩
  have hL : 2 * N ≤ 2 ^ 53 := by have := hb.N30; omega
  set d := lphase b.dim b.lk ct' - lphase (b.ctDim order) b.lk ct with hd
  have hnear := near_rotExpS (NeZero.pos N) hL b.dim b.lk ct'
  unfold Near at hnear
  simp only [Int.cast_natCast] at hnear
  obtain ⟨z, hz1, hz2⟩ := index_near w N (lphase b.dim b.lk ct') (X + d.toInt)
    (by rw [BitVec.ofInt_add, BitVec.ofInt_toInt, ← hct, hd]; ring)
    (-rotExpS N b.dim (fun i => (b.lk i).toInt) ct') _ 0 0 (by simp) hnear
  rw [add_zero] at hz1 hz2
  refine ⟨z, ?_, ?_⟩
  · have hdq : |(d.toInt : ℚ)| ≤ b.inNoise order 0 := by
      have : |(d.toInt : ℚ)| = (wabs d : ℚ) := by unfold wabs; rw [Nat.cast_natAbs, Int.cast_abs]
      rw [this]; exact_mod_cast h2
    have hsplit : (z : ℚ) - X * (2 * N) / 2 ^ w
        = d.toInt * (2 * N) / 2 ^ w + (z - ((X + d.toInt : ℤ) : ℚ) * (2 * N) / 2 ^ w) := by
      push_cast; ring
    have hle : b.inNoise order 0 * (2 * N) / 2 ^ w + (1 + weightS b.dim b.lk) * (switchErr N + 1) ≤ b.indexErr order := by
      cases order with
      | ksBr =>
        show ((0 + b.ksOut : ℕ) : ℚ) * (2 * N) / 2 ^ w + _ ≤ (b.ksOut : ℚ) * (2 * N) / 2 ^ w + _
        rw [Nat.zero_add]
      | brKs =>
        show ((0 : ℕ) : ℚ) * (2 * N) / 2 ^ w + _ ≤ _
        rw [Nat.cast_zero, zero_mul, zero_div, zero_add]
        exact le_refl _
    rw [hsplit]
    refine (abs_add_le _ _).trans (le_trans (add_le_add ?_ hz2) hle)
    rw [abs_div, abs_mul, abs_of_nonneg (by positivity : (0:ℚ) ≤ 2 * N),
      abs_of_pos (by positivity : (0:ℚ) < 2 ^ w)]
    exact div_le_div_of_nonneg_right (mul_le_mul_of_nonneg_right hdq (by positivity)) (by positivity)
  · rw [phase_lweKeyS, at_congr lut hz1]
    exact h3

/-- **C39 (phase).** Bootstrapping a ciphertext of `x` yields a ciphertext of `F(x)`. -/
theorem C39_phase (order : BootstrapOrder) (hb : b.Valid) (raw : List (BitVec w)) (hraw : raw.length = 1 * N)
    (err : Errs w N n) (herr : b.ErrOk err) (rot pb : ℕ) (hpb : pb ≠ rot) (buf old ct : ℕ → BitVec w)
    (F : ℕ → BitVec 64) (m : Mem (Poly N (BitVec w))) (x : ℕ) (hx : x < b.p.toNat) (e : BitVec w)
    (hct : phase (lweKeyS (b.ctDim order) b.lk) (fun t => ct t) = BitVec.ofNat w (x * b.s.toNat) + e)
    (hcond : (b.inNoise order (wabs e) : ℚ) * (2 * N) / 2 ^ w + b.loss ≤ N / (2 * b.p.toNat)) :
    ∃ res, b.run order raw err rot pb buf old ct F m = some res ∧
      wabs (phase (lweKeyS (b.ctDim order) b.lk) (fun t => res t) - encodeLWECustom (F x) b.p b.s)
        ≤ b.outNoise order := by
  rw [phase_lweKeyS] at hct
  obtain ⟨V, hV, hwin⟩ := C15_genLUT_encoded 1 N b.p b.s F raw hraw hb.p0 hb.pw hb.p52 hb.pL
  obtain ⟨res, ct', h1, h2, h3⟩ := fhew_bootstrap b order hb.toKeyValid err herr rot pb hpb buf old ct (V 0) m
  have hres : b.run order raw err rot pb buf old ct F m = some res := by
    rw [← h1]
    unfold FBoot.run FBoot.runLUT Fhew.bootstrapFunc
    rw [hV]
    rfl
  refine ⟨res, hres, ?_⟩
  have hL : 2 * N ≤ 2 ^ 53 := by have := hb.N30; omega
  have hp0 : 0 < b.p.toNat := by omega
  set d := lphase b.dim b.lk ct' - lphase (b.ctDim order) b.lk ct with hd
  have hnear := near_rotExpS (NeZero.pos N) hL b.dim b.lk ct'
  unfold Near at hnear
  simp only [Int.cast_natCast] at hnear
  have hin : wabs (e + d) ≤ b.inNoise order (wabs e) := by
    refine (wabs_add_le _ _).trans ((Nat.add_le_add_left h2 _).trans ?_)
    cases order with
    | ksBr => show wabs e + (0 + b.ksOut) ≤ wabs e + b.ksOut; omega
    | brKs => show wabs e + 0 ≤ wabs e; omega
  obtain ⟨z, hz1, hz2⟩ := index_in_window w N b.p.toNat b.s.toNat x (NeZero.pos N) hp0 hx (lphase b.dim b.lk ct') (e + d)
    (by rw [← add_assoc, ← hct, hd]; ring) (-rotExpS N b.dim (fun i => (b.lk i).toInt) ct') _ 0 0 (by simp) hnear (by
      have h4 : (wabs (e + d) : ℚ) * (2 * N) / 2 ^ w ≤ (b.inNoise order (wabs e) : ℚ) * (2 * N) / 2 ^ w :=
        div_le_div_of_nonneg_right (mul_le_mul_of_nonneg_right (by exact_mod_cast hin) (by positivity)) (by positivity)
      unfold FBoot.loss at hcond
      linarith)
  rw [add_zero] at hz1
  have e1 := (hwin x hx z (by rw [Nat.one_mul]; exact hz2)).1
  have e2 : at' (inter V) z = at' (V 0) z := by
    rw [at_inter, Subsingleton.elim (idx 1 z) 0]; simp
  rw [phase_lweKeyS, ← e1, e2, at_congr (V 0) hz1]
  exact h3

/-- **C39 (messages).** The result decrypts to `F(message)` modulo the message modulus when the noise of the result is
inside the decoding radius. -/
theorem C39_decrypts (order : BootstrapOrder) (hb : b.Valid) (raw : List (BitVec w)) (hraw : raw.length = 1 * N)
    (err : Errs w N n) (herr : b.ErrOk err) (rot pb : ℕ) (hpb : pb ≠ rot) (buf old ct : ℕ → BitVec w)
    (F : ℕ → BitVec 64) (m : Mem (Poly N (BitVec w))) (message : BitVec 64) (e : BitVec w)
    (hct : phase (lweKeyS (b.ctDim order) b.lk) (fun t => ct t) = encodeLWECustom message b.p b.s + e)
    (hcond : (b.inNoise order (wabs e) : ℚ) * (2 * N) / 2 ^ w + b.loss ≤ N / (2 * b.p.toNat))
    (hout : (b.outNoise order : ℚ) + b.p.toNat + 2 ^ w / 2 ^ 50 < (b.s.toNat : ℚ) / 2) :
    ∃ res, b.run order raw err rot pb buf old ct F m = some res ∧
      decodeLWECustom (decryptLWEPhase (lweKeyS (b.ctDim order) b.lk) (fun t => res t)) b.p b.s
        = some ((((F ((message.setWidth w).toNat % b.p.toNat)).setWidth w).toNat % b.p.toNat : ℕ) : ℤ) := by
  have hp0 : 0 < b.p.toNat := by
    rcases Nat.eq_zero_or_pos b.p.toNat with h0 | h0
    · exact absurd (BitVec.eq_of_toNat_eq (by simpa using h0)) hb.p0
    · exact h0
  have henc : encodeLWECustom message b.p b.s
      = BitVec.ofNat w ((message.setWidth w).toNat % b.p.toNat * b.s.toNat) := by
    unfold encodeLWECustom
    simp only [hb.p0, ne_eq, not_false_eq_true, if_true]
    apply BitVec.eq_of_toNat_eq
    rw [BitVec.toNat_mul, BitVec.toNat_umod, BitVec.toNat_ofNat]
  rw [henc] at hct
  obtain ⟨res, hres, h⟩ := C39_phase b order hb raw hraw err herr rot pb hpb buf old ct F m _
    (Nat.mod_lt _ hp0) e hct hcond
  refine ⟨res, hres, ?_⟩
  set x := F ((message.setWidth w).toNat % b.p.toNat)
  set d := phase (lweKeyS (b.ctDim order) b.lk) (fun t => res t) - encodeLWECustom x b.p b.s with hd
  refine C05_decrypt_of_phase hb.w1 _ _ x b.p b.s hb.p0 hb.scale d.toInt ?_ ?_
  · rw [BitVec.ofInt_toInt, hd]; ring
  · have e1 : |(d.toInt : ℚ)| = (wabs d : ℚ) := by unfold wabs; rw [Nat.cast_natAbs, Int.cast_abs]
    rw [e1]
    have : (wabs d : ℚ) ≤ b.outNoise order := by exact_mod_cast h
    linarith
end

/-! ### A concrete instance

64-bit words, degree 2048, rank 1, LWE dimension 250, secret key with the elements `-2`, `1` and `0`, windows of 10, modulus
4, noise of every key element up to 2^10; all masks and noises are arbitrary. -/

/-- The parameters of the instance; `N` is 2048 below. -/
def exFhew (N : ℕ) [NeZero N] (brMask : ℕ → Fin 2 → ℕ → Fin 1 → Poly N (BitVec 64))
    (brNoise : ℕ → Fin 2 → ℕ → Poly N (BitVec 64)) (gal : ℕ → KeyRand (Poly N (BitVec 64)) 1 1)
    (ksMask : ℕ → ℕ → Fin 250 → BitVec 64) (ksNoise : ℕ → ℕ → BitVec 64) : Fhew.FBoot 64 N 0 where
  gbr := ⟨1024, 10, 4⟩
  gks := ⟨16, 4, 8⟩
  window := 10
  dim := 250
  p := 4#64
  s := 0x2000000000000000#64
  lk := fun i => if i % 6 = 1 then -2#64 else if i % 6 = 2 then 1#64 else 0#64
  brMask := brMask
  brErr := 0
  brNoise := brNoise
  gal := gal
  ksMask := ksMask
  ksNoise := ksNoise
  A := 2
  B := 2 ^ 10
  Bks := 2 ^ 40
  Fe := 2 ^ 20

theorem exFhew_valid (N : ℕ) [NeZero N] (hN : N = 2048) (brMask brNoise gal ksMask ksNoise)
    (h1 : ∀ j i l, pabs (brNoise j i l) ≤ 2 ^ 10)
    (h2 : ∀ t i j, pabs ((gal t).noise i j - ∑ l, (gal t).err i j l) ≤ 2 ^ 10)
    (h3 : ∀ i j, wabs (ksNoise i j) ≤ 2 ^ 40) : (exFhew N brMask brNoise gal ksMask ksNoise).Valid where
  w1 := by norm_num
  logN := ⟨11, hN⟩
  N30 := by omega
  gbr := show (⟨1024, 10, 4⟩ : GadgetParams 64).Valid by constructor <;> decide
  gks := show (⟨16, 4, 8⟩ : GadgetParams 64).Valid by constructor <;> decide
  window := show 0 < 10 by norm_num
  dim := show 250 ≤ (0 + 1) * N by omega
  p0 := show 4#64 ≠ 0 by decide
  pw := show 2 * 4 < 2 ^ 64 by norm_num
  p52 := show 4 ≤ 2 ^ 52 by norm_num
  pL := show 4 * (1 * N) ≤ 2 ^ 51 by omega
  scale := show compileScale 64 4 = some 0x2000000000000000 by decide +kernel
  key := by
    intro i
    show wabs (if i % 6 = 1 then -2#64 else if i % 6 = 2 then 1#64 else 0#64) ≤ 2
    split
    · decide
    · split <;> decide
  brNoise := fun j i l => by
    show pabs (brNoise j i l - ∑ t : Fin 1, (0 : Poly N (BitVec 64))) ≤ _
    rw [Finset.sum_const_zero, sub_zero]; exact h1 j i l
  galNoise := h2
  ksNoise := fun i j _ => h3 i j

/-- With these parameters every ciphertext of 3 with noise up to 2^53 is bootstrapped correctly. -/
example (N : ℕ) [NeZero N] (hN : N = 2048) (brMask brNoise gal ksMask ksNoise)
    (h1 : ∀ j i l, pabs (brNoise j i l) ≤ 2 ^ 10)
    (h2 : ∀ t i j, pabs ((gal t).noise i j - ∑ l, (gal t).err i j l) ≤ 2 ^ 10)
    (h3 : ∀ i j, wabs (ksNoise i j) ≤ 2 ^ 40) (order : BootstrapOrder) (raw : List (BitVec 64))
    (hraw : raw.length = 1 * N) (buf old mask : ℕ → BitVec 64) (m : Mem (Poly N (BitVec 64)))
    (F : ℕ → BitVec 64) (e : BitVec 64) (he : wabs e ≤ 2 ^ 53) :
    let b := exFhew N brMask brNoise gal ksMask ksNoise
    let ct := fun t => if t = 0 then encodeLWECustom 3 4#64 0x2000000000000000#64 + e
        - ∑ i ∈ Finset.range (b.ctDim order), mask i * b.lk i else mask (t - 1)
    ∃ res, b.run order raw ⟨fun _ => 0, fun _ _ _ => 0⟩ 0 1 buf old ct F m = some res ∧
      decodeLWECustom (decryptLWEPhase (Fhew.lweKeyS (b.ctDim order) b.lk) (fun t => res t)) 4#64
        0x2000000000000000#64 = some (((F 3).toNat % 4 : ℕ) : ℤ) := by
  intro b ct
  have hw : Fhew.weightS 250 (fun i => if i % 6 = 1 then -2#64 else if i % 6 = 2 then 1#64 else 0#64) = 126 := by
    decide +kernel
  have hNq : (N : ℚ) = 2048 := by exact_mod_cast hN
  have hks : b.ksOut ≤ 2 ^ 57 := by
    show Fhew.ksBoundS (⟨16, 4, 8⟩ : GadgetParams 64) 2 ((0 + 1) * N - 250) (2 ^ 40) ≤ _
    rw [hN]
    decide +kernel
  have hbr : b.brOut ≤ 2 ^ 50 := by
    show 250 * ((1 * ((2 ^ (64 - 4 * 10) / 2) * (1 + (0 + 1) * (N * 2))) + (0 + 1 + 1) * (4 * (N * (1024 / 2 * 2 ^ 10)))
        + 2 ^ 20)
      + ((0 + 1) * (N * 2 * (2 ^ (64 - 4 * 10) / 2)) + (0 + 1) * (4 * (N * (1024 / 2 * 2 ^ 10))) + 2 ^ 20))
      + (2 * ((N / 2 - 1) / 10 + 1) + 1) * ((0 + 1) * (N * 2 * (2 ^ (64 - 4 * 10) / 2))
        + (0 + 1) * (4 * (N * (1024 / 2 * 2 ^ 10))) + 2 ^ 20) ≤ _
    rw [hN]
    norm_num
  have hin : b.inNoise order (wabs e) ≤ 2 ^ 53 + 2 ^ 57 := by
    cases order
    · exact Nat.add_le_add he hks
    · exact he.trans (by norm_num)
  have hon : b.outNoise order ≤ 2 ^ 50 + 2 ^ 57 := by
    cases order
    · exact hbr.trans (by norm_num)
    · exact Nat.add_le_add hbr hks
  have h0 : pabs (phase b.sk 0) ≤ b.Fe := by
    rw [phase_zero, show pabs (0 : Poly N (BitVec 64)) = 0 from (polyNorm N 64).zero]
    exact Nat.zero_le _
  have herr : b.ErrOk ⟨fun _ => 0, fun _ _ _ => 0⟩ := by
    constructor
    · intro _; exact h0
    · intro _ _ _; exact h0
  refine C39_decrypts b order (exFhew_valid N hN brMask brNoise gal ksMask ksNoise h1 h2 h3) raw hraw _ herr 0 1
    one_ne_zero buf old ct F m 3 e ?_ ?_ ?_
  · rw [Fhew.phase_lweKeyS]
    unfold Fhew.lphase
    simp only [ct, if_true, Nat.add_sub_cancel, Nat.succ_ne_zero, if_false]
    exact sub_add_cancel _ _
  · have hin' : (b.inNoise order (wabs e) : ℚ) ≤ 2 ^ 53 + 2 ^ 57 := by exact_mod_cast hin
    show _ * (2 * (N : ℚ)) / 2 ^ 64 + ((1 + (Fhew.weightS 250 (fun i => if i % 6 = 1 then -2#64 else if i % 6 = 2 then 1#64
        else 0#64) : ℚ)) * (switchErr N + 1)
      + (N : ℚ) * |(2 : ℚ) ^ 64 - 2 * ((4 : ℕ) : ℚ) * ((0x2000000000000000 : ℕ) : ℚ)| / 2 ^ 64 + 1)
        ≤ (N : ℚ) / (2 * ((4 : ℕ) : ℚ))
    rw [hw]
    unfold switchErr
    rw [hNq]
    norm_num
    linarith
  · have hon' : (b.outNoise order : ℚ) ≤ 2 ^ 50 + 2 ^ 57 := by exact_mod_cast hon
    show _ + ((4 : ℕ) : ℚ) + 2 ^ 64 / 2 ^ 50 < ((0x2000000000000000 : ℕ) : ℚ) / 2
    norm_num
    linarith

end Tfhe
