import Verif.Props.C28

/-!
# Decoding does not see half the modulus

When `2^w = 2 p s`, as for the default encoding with a scale that divides exactly, adding `2^(w-1)` to a phase does not change what
is decoded.  Two words are equal up to `2^(w-1)` exactly when their doubles are equal.
-/
namespace Tfhe.Half
open Tfhe Poly

variable {w : ℕ}

theorem double_cases {v u : BitVec w} (h : v + v = u + u) (c : ℕ) (hc : 2 ^ w = 2 * c) :
    ∃ a : ℕ, a < 2 ∧ (v.toNat : ℤ) = ((u.toNat : ℤ) + a * c) % 2 ^ w := by
  have h1 := congrArg BitVec.toNat h
  rw [BitVec.toNat_add, BitVec.toNat_add] at h1
  have hv := v.isLt
  have hu := u.isLt
  rw [hc] at h1 hv hu
  have hz : ((2 : ℤ) ^ w) = 2 * c := by exact_mod_cast hc
  rw [hz]
  have hcp : 0 < c := by have := Nat.two_pow_pos w; omega
  have h2 : v.toNat % c = u.toNat % c := by
    rw [← two_mul, ← two_mul, Nat.mul_mod_mul_left, Nat.mul_mod_mul_left] at h1
    omega
  generalize v.toNat = x at *
  generalize u.toNat = y at *
  by_cases hx : x < c <;> by_cases hy : y < c
  · rw [Nat.mod_eq_of_lt hx, Nat.mod_eq_of_lt hy] at h2
    exact ⟨0, by norm_num, by subst h2; push_cast; rw [zero_mul, add_zero, Int.emod_eq_of_lt] <;> omega⟩
  · rw [Nat.mod_eq_of_lt hx, Nat.mod_eq_sub_mod (by omega), Nat.mod_eq_of_lt (by omega)] at h2
    refine ⟨1, by norm_num, ?_⟩
    have : (y : ℤ) + (1 : ℕ) * c = x + 2 * c := by push_cast; omega
    rw [this, Int.add_emod_right, Int.emod_eq_of_lt] <;> omega
  · rw [Nat.mod_eq_of_lt hy, Nat.mod_eq_sub_mod (by omega), Nat.mod_eq_of_lt (by omega)] at h2
    refine ⟨1, by norm_num, ?_⟩
    have : (y : ℤ) + (1 : ℕ) * c = x := by push_cast; omega
    rw [this, Int.emod_eq_of_lt] <;> omega
  · rw [Nat.mod_eq_sub_mod (by omega), Nat.mod_eq_of_lt (by omega), Nat.mod_eq_sub_mod (by omega), Nat.mod_eq_of_lt (by omega)] at h2
    have : x = y := by omega
    exact ⟨0, by norm_num, by subst this; push_cast; rw [zero_mul, add_zero, Int.emod_eq_of_lt] <;> omega⟩

/-- Decoding a phase that is right up to half the modulus. -/
theorem decode_double (message : BitVec 64) (p s : BitVec w) (hp : p ≠ 0) (hex : 2 ^ w = 2 * (p.toNat * s.toNat)) (v : BitVec w)
    (e : ℤ) (hv : v + v = (encodeLWECustom message p s + BitVec.ofInt w e) + (encodeLWECustom message p s + BitVec.ofInt w e))
    (h : |(e : ℚ)| + 2 ^ w / 2 ^ 51 < (s.toNat : ℚ) / 2) :
    decodeLWECustom v p s = some (((message.setWidth w).toNat % p.toNat : ℕ) : ℤ) := by
  have hp0 : 0 < p.toNat := by
    rcases Nat.eq_zero_or_pos p.toNat with h0 | h0
    · exact absurd (BitVec.eq_of_toNat_eq (by simpa using h0)) hp
    · exact h0
  have hmp := Nat.mod_lt (message.setWidth w).toNat hp0
  have hx : ((encodeLWECustom message p s + BitVec.ofInt w e).toNat : ℤ) =
      ((((message.setWidth w).toNat % p.toNat : ℕ) : ℤ) * s.toNat + e) % 2 ^ w := by
    rw [toNat_add_ofInt]
    unfold encodeLWECustom
    simp only
    rw [BitVec.toNat_mul, toNat_encode_reduce _ _ hp]
    push_cast
    rw [Int.emod_add_emod]
  obtain ⟨a, ha, hxv⟩ := double_cases hv _ hex
  rw [hx, Int.emod_add_emod] at hxv
  generalize (message.setWidth w).toNat % p.toNat = m at *
  have hm2 : m + a * p.toNat < 2 * p.toNat := by nlinarith
  obtain ⟨d, h1, h2, h3⟩ := decode_core w (2 * p.toNat) s.toNat (m + a * p.toNat) 1 e one_pos hm2 v.toNat
    (by rw [hxv]; congr 1; push_cast; ring) (by
      have : (2 : ℚ) ^ w = 2 * (p.toNat * s.toNat) := by exact_mod_cast hex
      rw [show (2 : ℚ) ^ w - ((1 : ℕ) : ℚ) * ((2 * p.toNat : ℕ) : ℚ) * s.toNat = 0 by rw [this]; push_cast; ring, abs_zero, add_zero]
      exact h)
  have h4 : d % p.toNat = m := by
    have : d % (2 * p.toNat) % p.toNat = (m + a * p.toNat) % p.toNat := by rw [h2]
    rw [Nat.mod_mod_of_dvd _ (Dvd.intro_left 2 rfl), Nat.add_mul_mod_self_right, Nat.mod_eq_of_lt hmp] at this
    exact this
  unfold decodeLWECustom
  rw [h1]
  simp only [Option.bind_some]
  rw [if_neg hp, Option.bind_some, if_neg (by omega), h4]
  congr 1
  rw [BitVec.toInt_eq_toNat_of_lt]
  · rw [BitVec.toNat_ofNat, Nat.mod_eq_of_lt (by omega)]
  · rw [BitVec.toNat_ofNat, Nat.mod_eq_of_lt (by omega)]; omega

theorem decodeGLWE_double (N outLen : ℕ) (messages : List (BitVec 64)) (p s : BitVec w) (hp : p ≠ 0)
    (hex : 2 ^ w = 2 * (p.toNat * s.toNat)) (pt ph : Poly N (BitVec w)) (hpt : Poly.toList pt = encodeGLWECustom N messages p s)
    (e : Fin N → ℤ) (hv : ∀ i, ph i + ph i = (pt i + BitVec.ofInt w (e i)) + (pt i + BitVec.ofInt w (e i)))
    (h : ∀ i, |(e i : ℚ)| + 2 ^ w / 2 ^ 51 < (s.toNat : ℚ) / 2) :
    ∃ out : List ℤ, decodeGLWECustom outLen (Poly.toList ph) p s = some out ∧ out.length = min outLen N ∧
      ∀ i, i < min outLen N → out[i]? = some (if h : i < messages.length then
        (((messages[i].setWidth w).toNat % p.toNat : ℕ) : ℤ) else 0) := by
  have hpt' : ∀ i : Fin N, pt i = encodeLWECustom (msgAt messages i) p s := by
    intro i
    rw [encodeGLWE_eq] at hpt
    have := congrArg (·[(i : ℕ)]?) hpt
    unfold Poly.toList at this
    erw [List.getElem?_ofFn, List.getElem?_ofFn, dif_pos i.2, dif_pos i.2] at this
    exact Option.some.inj this
  have hdec : ∀ i : Fin N, decodeLWECustom (ph i) p s = some ((((msgAt messages i).setWidth w).toNat % p.toNat : ℕ) : ℤ) :=
    fun i => decode_double _ p s hp hex _ (e i) (by rw [← hpt']; exact hv i) (h i)
  have hall : decodeGLWECustom outLen (List.ofFn (fun i : Fin N => ph i)) p s =
      some (((List.ofFn (fun i : Fin N => ph i)).take outLen).map fun c => (decodeLWECustom c p s).getD 0) := by
    apply mapM_some
    intro a ha
    obtain ⟨i, rfl⟩ := (List.mem_ofFn' _ _).1 (List.mem_of_mem_take ha)
    simp only [hdec i, Option.getD_some]
  refine ⟨_, hall, by simp, ?_⟩
  intro i hi
  rw [List.getElem?_map, List.getElem?_take_of_lt (by omega), List.getElem?_ofFn, dif_pos (by omega)]
  rw [Option.map_some]
  have := hdec ⟨i, by omega⟩
  simp only at this
  rw [this, Option.getD_some]
  by_cases hm : i < messages.length <;> simp [msgAt, hm]

section
variable {N k : ℕ} [NeZero N] {R : Type} [CommRing R]

theorem pubLWENoise_double (sk r n m n' m' : Fin k → Poly N R) (n0 m0 : R) (pkErr err : Fin k → Fin k → Poly N R)
    (h0 : n0 + n0 = m0 + m0) (h1 : ∀ i, n i + n i = m i + m i) (h2 : ∀ i, n' i + n' i = m' i + m' i) :
    pubLWENoise sk r n pkErr n0 n' err + pubLWENoise sk r n pkErr n0 n' err =
      pubLWENoise sk r m pkErr m0 m' err + pubLWENoise sk r m pkErr m0 m' err := by
  have a : ∑ i, inner' (r i) (n i) + ∑ i, inner' (r i) (n i) = ∑ i, inner' (r i) (m i) + ∑ i, inner' (r i) (m i) := by
    simp only [← Finset.sum_add_distrib, ← inner_add_right, h1]
  have b : ∑ i, inner' (n' i) (sk i) + ∑ i, inner' (n' i) (sk i) = ∑ i, inner' (m' i) (sk i) + ∑ i, inner' (m' i) (sk i) := by
    simp only [← Finset.sum_add_distrib, ← inner_add_left, h2]
  unfold pubLWENoise
  linear_combination a + b + h0
end

section
variable {P : Type} [CommRing P] {k : ℕ}

theorem pubGLWENoise_double (sk r n m : Fin (k + 1) → P) (n' m' : Fin (k + 2) → P) (pkErr : Fin (k + 1) → Fin (k + 1) → P)
    (err : Fin (k + 1) → Fin (k + 2) → P) (h1 : ∀ i, n i + n i = m i + m i) (h2 : ∀ i, n' i + n' i = m' i + m' i) :
    pubGLWENoise sk r n pkErr n' err + pubGLWENoise sk r n pkErr n' err =
      pubGLWENoise sk r m pkErr m' err + pubGLWENoise sk r m pkErr m' err := by
  have a : ∑ i, r i * (n i - ∑ j, pkErr i j) + ∑ i, r i * (n i - ∑ j, pkErr i j) =
      ∑ i, r i * (m i - ∑ j, pkErr i j) + ∑ i, r i * (m i - ∑ j, pkErr i j) := by
    rw [← Finset.sum_add_distrib, ← Finset.sum_add_distrib]
    exact Finset.sum_congr rfl fun i _ => by linear_combination r i * h1 i
  have b : phase sk n' + phase sk n' = phase sk m' + phase sk m' := by
    rw [← phase_add, ← phase_add, show n' + n' = m' + m' from funext h2]
  unfold pubGLWENoise
  linear_combination a + b
end
end Tfhe.Half
