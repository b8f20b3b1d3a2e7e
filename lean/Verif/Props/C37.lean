import Verif.Props.C36
import Verif.Props.C10

/-!
# C37: packing an LWE ciphertext into GLWE

Residues are halved modulo a power of two, so single coefficients lose information; the argument follows only the
coefficients that survive: after `i` steps, those at multiples of `N / 2^i`.
-/
namespace Tfhe
open Bfv Finset
variable {w N n : ℕ} [NeZero N]

local notation "Pl" => Poly N (BitVec w)

theorem keepMul_add (t : ℕ) (p q : Pl) : keepMul t (p + q) = keepMul t p + keepMul t q := by
  funext j
  show (if t ∣ (j : ℕ) then p j + q j else 0) = (if t ∣ (j : ℕ) then p j else 0) + (if t ∣ (j : ℕ) then q j else 0)
  split <;> simp

omit [NeZero N] in
theorem pabs_keepMul_le (t : ℕ) (p : Pl) : pabs (keepMul t p) ≤ pabs p := by
  rw [pabs_le_iff]
  intro j
  show wabs (if t ∣ (j : ℕ) then p j else 0) ≤ _
  split
  · exact wabs_le_pabs p j
  · rw [wabs_zero]; exact Nat.zero_le _

omit [NeZero N] in
theorem keepMul_one (p : Pl) : keepMul 1 p = p := by
  funext j
  show (if 1 ∣ (j : ℕ) then p j else 0) = p j
  rw [if_pos (one_dvd _)]

theorem keepMul_N (p : Pl) : keepMul N p = Poly.C N (p 0) := by
  funext j
  show (if N ∣ (j : ℕ) then p j else 0) = if (j : ℕ) = 0 then p 0 else 0
  by_cases h : (j : ℕ) = 0
  · rw [if_pos h, h, if_pos (dvd_zero _)]
    congr 1; exact Fin.ext (by simpa using h)
  · rw [if_neg h, if_neg (fun hd => by have := Nat.le_of_dvd (Nat.pos_of_ne_zero h) hd; have := j.2; omega)]

theorem at_add_mul_N (p : Pl) (z : ℤ) (a : ℕ) : Poly.at' p (z + a * N) = if a % 2 = 0 then Poly.at' p z else -Poly.at' p z := by
  induction a with
  | zero => simp
  | succ a ih =>
    rw [show z + ((a + 1 : ℕ) : ℤ) * N = (z + a * N) + N by push_cast; ring, Poly.at_add_N, ih]
    by_cases h : a % 2 = 0
    · rw [if_pos h, if_neg (by omega)]
    · rw [if_neg h, if_pos (by omega), neg_neg]

/-- One automorphism doubles the coefficients at multiples of `N / 2^i` and clears those at the other multiples
of `N / 2^(i+1)`. -/
theorem keep_trace (logN : ℕ) (hN : N = 2 ^ logN) (i : ℕ) (hi : i < logN) (p : Pl) :
    keepMul (2 ^ (logN - (i + 1))) (p + Poly.subst ((2 : ℤ) ^ (i + 1) + 1) p)
      = keepMul (2 ^ (logN - i)) p + keepMul (2 ^ (logN - i)) p := by
  have hd : ((2 : ℤ) ^ (i + 1) + 1) % 2 = 1 := by rw [pow_succ]; omega
  have hN' : N = 2 ^ (logN - (i + 1)) * 2 ^ (i + 1) := by rw [hN, ← pow_add]; congr 1; omega
  have ht : 2 ^ (logN - i) = 2 ^ (logN - (i + 1)) * 2 := by rw [← pow_succ]; congr 1; omega
  funext j
  show (if 2 ^ (logN - (i + 1)) ∣ (j : ℕ) then p j + Poly.subst ((2 : ℤ) ^ (i + 1) + 1) p j else 0)
    = (if 2 ^ (logN - i) ∣ (j : ℕ) then p j else 0) + (if 2 ^ (logN - i) ∣ (j : ℕ) then p j else 0)
  by_cases h : 2 ^ (logN - (i + 1)) ∣ (j : ℕ)
  · obtain ⟨a, ha⟩ := h
    have h1 : Poly.subst ((2 : ℤ) ^ (i + 1) + 1) p j = if a % 2 = 0 then p j else -p j := by
      have e1 := Poly.at_subst _ hd (coprime_of_odd logN hN _ hd) p (j : ℤ)
      have e2 : ((2 : ℤ) ^ (i + 1) + 1) * ((j : ℕ) : ℤ) = (j : ℕ) + a * N := by
        have h2 : ((j : ℕ) : ℤ) = 2 ^ (logN - (i + 1)) * a := by exact_mod_cast ha
        have h3 : (N : ℤ) = 2 ^ (logN - (i + 1)) * 2 ^ (i + 1) := by exact_mod_cast hN'
        rw [h2, h3]; ring
      rw [e2, at_add_mul_N, Poly.at_coe, Poly.at_coe] at e1
      by_cases h : a % 2 = 0
      · rw [if_pos h] at e1 ⊢; exact e1
      · rw [if_neg h] at e1 ⊢; rw [← e1, neg_neg]
    rw [if_pos ⟨a, ha⟩, h1]
    have h4 : 2 ^ (logN - i) ∣ (j : ℕ) ↔ a % 2 = 0 := by
      rw [ha, ht, Nat.mul_dvd_mul_iff_left (by positivity)]
      omega
    simp only [h4]
    by_cases h : a % 2 = 0
    · simp only [if_pos h]
    · simp only [if_neg h]; rw [add_neg_cancel, add_zero]
  · rw [if_neg h, if_neg (fun h' => h ((Dvd.intro _ ht.symm).trans h')), add_zero]

theorem halve_twice (hw : 2 ≤ w) (x : BitVec w) : ∃ b : BitVec w, (b = 0 ∨ b = 1) ∧
    divRoundBits x 1 + divRoundBits x 1 = x + b := by
  refine ⟨BitVec.ofNat w (x.toNat % 2), ?_, ?_⟩
  · rcases Nat.mod_two_eq_zero_or_one x.toNat with h | h <;> rw [h]
    · exact Or.inl rfl
    · exact Or.inr rfl
  · apply BitVec.eq_of_toNat_eq
    rw [BitVec.toNat_add, BitVec.toNat_add, toNat_divRoundBits x 1 (by omega), BitVec.toNat_ofNat, Nat.add_mod_mod]
    congr 1
    omega

/-- Halving a ciphertext: twice the new phase is the old phase plus an error of bits. -/
theorem halve_phase (hw : 2 ≤ w) (s : Fin (n + 1) → Pl) (S : ℕ) (hS : ∀ i x, pabs (x * s i) ≤ S * pabs x) (out : ℕ)
    (m : Mem Pl) : ∃ r : Pl, pabs r ≤ 1 + (n + 1) * S ∧
      phase s (ctOf (n + 1) (halveGLWE (n + 1) out m) out) + phase s (ctOf (n + 1) (halveGLWE (n + 1) out m) out)
        = phase s (ctOf (n + 1) m out) + r ∧
      (∀ v i, v ≠ out → halveGLWE (n + 1) out m v i = m v i) := by
  obtain ⟨h1, h2⟩ := mapLoopI_whole (fun _ o _ _ => fun l => divRoundBits (o l) 1 : ℕ → Pl → Pl → Pl → Pl) (n + 1) out out out m
  choose b hb hb' using halve_twice hw
  let bp : Fin (n + 1 + 1) → Pl := fun i l => b (ctOf (n + 1) m out i l)
  have hbp : ∀ i, pabs (bp i) ≤ 1 := by
    intro i
    rw [pabs_le_iff]
    intro l
    have h := wabs_cast_le (w := w) 1
    rcases hb (ctOf (n + 1) m out i l) with h' | h' <;> show wabs (b _) ≤ 1 <;> rw [h']
    · rw [wabs_zero]; exact Nat.zero_le _
    · simpa using h
  refine ⟨phase s bp, ?_, ?_, fun v i hv => h2 v i (Or.inl hv)⟩
  · unfold phase
    refine (pabs_add_le _ _).trans (Nat.add_le_add (hbp 0) ?_)
    have h := (polyNorm N w).sum_le_card Finset.univ (fun i : Fin (n + 1) => bp i.succ * s i) (S * 1)
      (fun i _ => (hS i _).trans (Nat.mul_le_mul_left _ (hbp _)))
    rw [Finset.card_fin, mul_one] at h
    exact h
  · rw [← phase_add, ← phase_add]
    congr 1
    rw [show ctOf (n + 1) (halveGLWE (n + 1) out m) out = _ from h1]
    funext i l
    exact hb' _

theorem packDegree (i : ℕ) (hi : i < 62) : ((1#64 <<< (i + 1)) + 1#64).toInt = (2 : ℤ) ^ (i + 1) + 1 ∧
    ((1#64 <<< (i + 1)) + 1#64) &&& 1 ≠ 0 := by
  have hp : 2 ^ (i + 1) ≤ 2 ^ 62 := Nat.pow_le_pow_right (by norm_num) (by omega)
  have h1 : ((1#64 <<< (i + 1)) + 1#64).toNat = 2 ^ (i + 1) + 1 := by
    rw [BitVec.toNat_add, BitVec.toNat_shiftLeft, Nat.shiftLeft_eq]
    simp only [BitVec.toNat_ofNat]
    omega
  have h2 : ((1#64 <<< (i + 1)) + 1#64).toInt = (2 : ℤ) ^ (i + 1) + 1 := by
    rw [BitVec.toInt_eq_toNat_of_lt (by omega), h1]; push_cast; ring
  refine ⟨h2, fun h => ?_⟩
  have := (odd_toInt _).1 h
  rw [h2, pow_succ] at this
  omega

/-- The degrees of `GenGaloisKeysForPack` are odd and are those `PackTo` asks for. -/
theorem C37_degrees (logN : ℕ) (h : logN ≤ 62) : (∀ d ∈ packAuts logN, d &&& 1 ≠ 0) ∧
    ∀ i < logN, (1#64 <<< (i + 1)) + 1#64 ∈ packAuts logN := by
  constructor
  · intro d hd
    obtain ⟨i, hi, rfl⟩ := List.mem_map.1 hd
    have hi := List.mem_range.1 hi
    have := (packDegree (logN - i - 1) (by omega)).2
    rwa [show logN - i - 1 + 1 = logN - i by omega] at this
  · intro i hi
    refine List.mem_map.2 ⟨logN - 1 - i, List.mem_range.2 (by omega), ?_⟩
    rw [show logN - (logN - 1 - i) = i + 1 by omega]

/-- The main loop, for any `c` and any permutations that are right up to `K`. -/
theorem pack_loop (hw : 2 ≤ w) (logN : ℕ) (hN : N = 2 ^ logN) (h62 : logN ≤ 62) (gk : GalKeys w N n)
    (s : Fin (n + 1) → Pl) (S K : ℕ) (hS : ∀ i x, pabs (x * s i) ≤ S * pabs x) (out pk pb : ℕ) (hpk : out ≠ pk)
    (hpb : pb ≠ out) (err : ℕ → Fin (n + 1 + 1) → Pl)
    (hP : ∀ i < logN, ∀ m : Mem Pl, ∃ m', permuteTo gk pk out pb ((1#64 <<< (i + 1)) + 1#64) (err i) m = some m' ∧
      pabs (phase s (ctOf (n + 1) m' pk)
        - Poly.subst ((1#64 <<< (i + 1)) + 1#64).toInt (phase s (ctOf (n + 1) m out))) ≤ K ∧
      (∀ v i, v ≠ pk → v ≠ pb → m' v i = m v i))
    (m : Mem Pl) (j : ℕ) (hj : j ≤ logN) :
    ∃ m', (List.range j).foldlM (packStep gk out pk pb err) m = some m' ∧
      pabs (keepMul (2 ^ (logN - j)) (phase s (ctOf (n + 1) m' out)) - Poly.C N (phase s (ctOf (n + 1) m out) 0))
        ≤ j * (1 + (n + 1) * S + K) ∧
      (∀ v i, v ≠ out → v ≠ pk → v ≠ pb → m' v i = m v i) := by
  induction j with
  | zero =>
    refine ⟨m, rfl, ?_, fun _ _ _ _ _ => rfl⟩
    rw [Nat.sub_zero, ← hN, keepMul_N, sub_self, zero_mul]
    exact (polyNorm N w).zero.le
  | succ j ih =>
    obtain ⟨m1, e1, b1, f1⟩ := ih (by omega)
    obtain ⟨r, hr, e2, f2⟩ := halve_phase hw s S hS out m1
    obtain ⟨m2, e3, b3, f3⟩ := hP j (by omega) (halveGLWE (n + 1) out m1)
    obtain ⟨e4, f4⟩ := C07_add (n + 1) out out pk m2
    refine ⟨addGLWETo (n + 1) out out pk m2, ?_, ?_, ?_⟩
    · rw [List.range_succ, List.foldlM_append, e1]
      show (List.foldlM (packStep gk out pk pb err) m1 [j]) = _
      rw [List.foldlM_cons, packStep, e3]
      rfl
    · rw [e4 s]
      beta_reduce
      have ho : ctOf (n + 1) m2 out = ctOf (n + 1) (halveGLWE (n + 1) out m1) out := by
        funext i; exact f3 out i hpk hpb.symm
      rw [(packDegree j (by omega)).1] at b3
      rw [ho]
      generalize phase s (ctOf (n + 1) (halveGLWE (n + 1) out m1) out) = φ' at *
      generalize phase s (ctOf (n + 1) m2 pk) = ψ at *
      generalize phase s (ctOf (n + 1) m1 out) = φ at *
      have k1 : φ' + ψ = (φ' + Poly.subst ((2 : ℤ) ^ (j + 1) + 1) φ')
          + (ψ - Poly.subst ((2 : ℤ) ^ (j + 1) + 1) φ') := by ring
      rw [k1, keepMul_add, keep_trace logN hN j (by omega), ← keepMul_add, e2, keepMul_add]
      have k2 : ∀ a b c d : Pl, a + b + c - d = (a - d) + (b + c) := fun a b c d => by ring
      rw [k2]
      refine (pabs_add_le _ _).trans ?_
      have k3 := (pabs_add_le (keepMul (2 ^ (logN - j)) r) (keepMul (2 ^ (logN - (j + 1)))
        (ψ - Poly.subst ((2 : ℤ) ^ (j + 1) + 1) φ'))).trans
          (Nat.add_le_add ((pabs_keepMul_le _ r).trans hr) ((pabs_keepMul_le _ _).trans b3))
      rw [Nat.succ_mul]
      exact Nat.add_le_add b1 k3
    · intro v i h1 h2 h3
      rw [f4 v i (Or.inl h1), f3 v i h2 h3, f2 v i h1, f1 v i h1 h2 h3]

/-- A row of the embedding: coefficient `-j` is entry `j` of the LWE mask. -/
theorem embedRow_spec (off : ℕ) (ct old : ℕ → BitVec w) (j : ℕ) (hj : j < N) :
    Poly.at' (fnPoly N (embedRow N off ct old)) (-(j : ℤ)) = ct (off + j) := by
  have key : ∀ c, c ≤ N - 1 → ∀ t, (List.range' 1 c).foldl (fun a j => upd a (N - j) (-ct (off + j))) (upd old 0 (ct off)) t
      = if N - c ≤ t ∧ t < N then -ct (off + (N - t)) else upd old 0 (ct off) t := by
    intro c hc
    induction c with
    | zero => intro t; rw [if_neg (by omega)]; rfl
    | succ c ih =>
      intro t
      rw [List.range'_concat, List.foldl_append]
      show upd _ (N - (1 + 1 * c)) _ t = _
      unfold upd at ih ⊢
      by_cases h : t = N - (1 + 1 * c)
      · rw [if_pos h, if_pos (by omega), show 1 + 1 * c = N - t by omega]
      · rw [if_neg h, ih (by omega)]
        by_cases h' : N - c ≤ t ∧ t < N
        · rw [if_pos h', if_pos (by omega)]
        · rw [if_neg h', if_neg (show ¬(N - (c + 1) ≤ t ∧ t < N) by omega)]
  have key := key (N - 1) le_rfl
  have hpos := NeZero.pos N
  by_cases h0 : j = 0
  · subst h0
    have := Poly.at_natCast (fnPoly N (embedRow N off ct old)) 0 hpos
    simp only [Nat.cast_zero, neg_zero] at this ⊢
    rw [this]
    show embedRow N off ct old 0 = _
    unfold embedRow
    rw [key, if_neg (by omega)]
    simp [upd]
  · have h1 : -(j : ℤ) = ((N - j : ℕ) : ℤ) - N := by omega
    rw [h1, Poly.at_sub_N, Poly.at_natCast _ _ (by omega)]
    show -embedRow N off ct old (N - j) = _
    unfold embedRow
    rw [key, if_pos (by omega), neg_neg]
    congr 2; omega

/-- The embedding: the constant coefficient of the phase is the phase of the LWE ciphertext. -/
theorem C37_embed (k out : ℕ) (s : Fin k → Pl) (ct kout : ℕ → BitVec w) (m : Mem Pl) :
    phase s (ctOf k (packInit k out ct m) out) 0
        = phase (fun t : Fin (k * N) => asLWEKey s kout t) (fun t : Fin (k * N + 1) => ct t) ∧
      (∀ v i, v ≠ out → packInit k out ct m v i = m v i) := by
  have hm : ∀ v i, packInit k out ct m v i = if v = out ∧ i ∈ List.range' 1 k then
      fnPoly N (embedRow N (1 + (i - 1) * N) ct (polyFn (m.write out 0 (fnPoly N (upd (fun _ => 0) 0 (ct 0))) out i)))
      else m.write out 0 (fnPoly N (upd (fun _ => 0) 0 (ct 0))) v i := fun v i =>
    mapLoopI_spec (fun i old _ _ => fnPoly N (embedRow N (1 + (i - 1) * N) ct (polyFn old))) out out out _
      List.nodup_range' _ v i
  constructor
  · obtain ⟨b1, -⟩ := asLWEKey_spec s kout
    unfold phase
    rw [Poly.add_apply, Poly.sum_apply]
    congr 1
    · show packInit k out ct m out 0 0 = ct 0
      rw [hm, if_neg (by simp)]
      simp [Mem.write, fnPoly, upd]
    · simp only [Fin.val_succ]
      rw [Fin.sum_univ_eq_sum_range (fun t => ct (t + 1) * asLWEKey s kout t), sum_rows,
        ← Fin.sum_univ_eq_sum_range
          (fun i => ∑ j ∈ Finset.range N, ct (i * N + j + 1) * asLWEKey s kout (i * N + j))]
      refine Finset.sum_congr rfl fun i _ => ?_
      have hrow : ctOf k (packInit k out ct m) out i.succ = fnPoly N (embedRow N (1 + i * N) ct
          (polyFn (m.write out 0 (fnPoly N (upd (fun _ => 0) 0 (ct 0))) out (i + 1)))) := by
        show packInit k out ct m out (i + 1) = _
        rw [hm, if_pos ⟨rfl, by rw [List.mem_range'_1]; omega⟩, Nat.add_sub_cancel]
      rw [hrow, mul_comm]
      generalize hc : fnPoly N (embedRow N (1 + i * N) ct
          (polyFn (m.write out 0 (fnPoly N (upd (fun _ => 0) 0 (ct 0))) out (i + 1)))) = c
      refine (Poly.at_coe (s i * c) 0).symm.trans ?_
      rw [Poly.at_mul]
      refine Finset.sum_congr rfl fun j hj => ?_
      have hj := Finset.mem_range.1 hj
      have hb := b1 i ⟨j, hj⟩
      simp only at hb
      rw [hb, Poly.at_natCast _ _ hj, mul_comm]
      congr 1
      rw [show (((0 : Fin N) : ℕ) : ℤ) - (j : ℤ) = -(j : ℤ) by simp, ← hc, embedRow_spec _ _ _ j hj]
      congr 1; ring
  · intro v i hv
    rw [hm, if_neg (fun h => hv h.1)]
    unfold Mem.write
    rw [if_neg (fun h => hv h.1)]

/-- **C37.** `PackTo` with keys from `GenGaloisKeysForPack`, for every LWE ciphertext, binary key, `N = 2^logN`
and contents of the output and the buffers: it succeeds, and the phase of the output is the constant polynomial
of the LWE phase, up to `logN` times the rounding `1 + k N` and the noise of a permutation. -/
theorem C37_pack (hw : 2 ≤ w) (logN : ℕ) (hN : N = 2 ^ logN) (h62 : logN ≤ 62) (g : GadgetParams w) (hg : g.Valid)
    (s : Fin (n + 1) → Pl) (hbin : ∀ i j, s i j = 0 ∨ s i j = 1) (ρ : ℕ → KeyRand Pl (n + 1) (n + 1))
    (out pk pb : ℕ) (hpk : out ≠ pk) (hpb : pb ≠ out) (err : ℕ → Fin (n + 1 + 1) → Pl) (B F : ℕ)
    (hB : ∀ t i j, pabs ((ρ t).noise i j - ∑ l, (ρ t).err i j l) ≤ B) (hF : ∀ i, pabs (phase s (err i)) ≤ F)
    (ct kout : ℕ → BitVec w) (m : Mem Pl) :
    ∃ gk m', genGaloisKeysForPack logN g s ρ = some gk ∧ packTo gk logN out pk pb ct err m = some m' ∧
      pabs (phase s (ctOf (n + 1) m' out)
        - Poly.C N (phase (fun t : Fin ((n + 1) * N) => asLWEKey s kout t) (fun t : Fin ((n + 1) * N + 1) => ct t)))
        ≤ logN * (1 + (n + 1) * N + ((n + 1) * (N * (2 ^ (w - g.level * g.logBase) / 2))
          + (n + 1) * (g.level * (N * (g.base.toNat / 2 * B))) + F)) ∧
      (∀ v i, v ≠ out → v ≠ pk → v ≠ pb → m' v i = m v i) := by
  obtain ⟨hodd, hmem⟩ := C37_degrees logN h62
  obtain ⟨gk, hgk, -⟩ := C36_genGaloisKeys g s ρ (packAuts logN) hodd
  obtain ⟨e1, f1⟩ := C37_embed (n + 1) out s ct kout m
  obtain ⟨m', e2, b2, f2⟩ := pack_loop hw logN hN h62 gk s N _ (fun i x => pabs_mul_binary (s i) (hbin i) x) out pk pb hpk
    hpb err (fun i hi m => C36_bound logN hN g hg s hbin ρ (packAuts logN) hodd gk hgk _ (hmem i hi) pk out pb hpb (err i) m B F
      hB (hF i)) (packInit (n + 1) out ct m) logN le_rfl
  refine ⟨gk, m', hgk, e2, ?_, fun v i h1 h2 h3 => by rw [f2 v i h1 h2 h3, f1 v i h1]⟩
  rw [Nat.sub_self, pow_zero, keepMul_one, e1] at b2
  exact b2

/-- Non-trivial instance: key polynomial 1, `N = 4`, 32-bit words, noiseless keys, the LWE ciphertext of
phase `2^30` with mask 0: the message survives in every buffer state. -/
example (g : GadgetParams 32) (hg : g.Valid) (ρ : ℕ → KeyRand (Poly 4 (BitVec 32)) 1 1)
    (hρ : ∀ t i j, (ρ t).noise i j = 0 ∧ ∀ l, (ρ t).err i j l = 0) (m : Mem (Poly 4 (BitVec 32))) :
    ∃ gk m', genGaloisKeysForPack (n := 0) 2 g (fun _ => 1) ρ = some gk ∧
      packTo gk 2 0 1 2 (fun i => if i = 0 then 0x40000000#32 else 0) (fun _ _ => 0) m = some m' ∧
      pabs (phase (fun _ : Fin 1 => 1) (ctOf 1 m' 0) - Poly.C 4 0x40000000#32)
        ≤ 2 * (1 + (0 + 1) * 4 + ((0 + 1) * (4 * (2 ^ (32 - g.level * g.logBase) / 2))
          + (0 + 1) * (g.level * (4 * (g.base.toNat / 2 * 0))) + 0)) := by
  obtain ⟨gk, m', h1, h2, h3, -⟩ := C37_pack (n := 0) (by norm_num) 2 (by norm_num) (by norm_num) g hg
    (fun _ => (1 : Poly 4 (BitVec 32))) (fun _ => one_binary) ρ 0 1 2 (by decide) (by decide) (fun _ _ => 0) 0 0
    (fun t i j => by
      rw [(hρ t i j).1, Finset.sum_eq_zero (fun l _ => (hρ t i j).2 l), sub_zero]
      exact (polyNorm 4 32).zero.le)
    (fun i => by
      have : phase (fun _ : Fin 1 => (1 : Poly 4 (BitVec 32))) (fun _ => 0) = 0 := by simp [phase]
      rw [this]; exact (polyNorm 4 32).zero.le)
    (fun i => if i = 0 then 0x40000000#32 else 0) (fun _ => 0) m
  refine ⟨gk, m', h1, h2, ?_⟩
  have e : phase (fun t : Fin ((0 + 1) * 4) => asLWEKey (fun _ : Fin 1 => (1 : Poly 4 (BitVec 32))) (fun _ => 0) t)
      (fun t : Fin ((0 + 1) * 4 + 1) => if (t : ℕ) = 0 then 0x40000000#32 else 0) = 0x40000000#32 := by
    simp [phase]
  rw [e] at h3
  exact h3
end Tfhe
