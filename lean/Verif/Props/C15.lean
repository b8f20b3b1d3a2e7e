import Verif.Model.Bootstrap
import Verif.Spec.Interleave
import Verif.Props.C08
import Verif.Props.C44
import Verif.Lemma.Float

/-!
# C15: lookup table generation

The table generated for a function `F` on `p` messages, as a polynomial of degree `L`, has the value
`F x` at every index close to `x * L / p`, and the negated values half a period away.
-/
namespace Tfhe

/-- `num.DivRound` on Go ints is exact rounding (ties up) for numerators up to `2^51`. -/
theorem divRoundInt_eq (x y : ℕ) (hy : 0 < y) (hy2 : y ≤ 2 ^ 53) (hx : x ≤ 2 ^ 51) :
    divRoundInt x y = some ((2 * x + y) / (2 * y)) := by
  have hy' : (0:ℚ) < y := by exact_mod_cast hy
  have hx' : (0:ℚ) ≤ x := by positivity
  unfold divRoundInt divRound
  rw [if_neg (by omega), fl_nat x (by omega), fl_nat y hy2]
  set n := (2 * x + y) / (2 * y) with hn
  have hn1 : n * (2 * y) ≤ 2 * x + y := Nat.div_mul_le_self _ _
  have hn2 : 2 * x + y < (n + 1) * (2 * y) := by
    rw [mul_comm (n + 1)]; exact Nat.lt_mul_div_succ _ (by omega)
  have hn3 : n ≤ 2 ^ 51 + 1 := by
    by_contra hc
    have : (2 ^ 51 + 2) * (2 * y) ≤ n * (2 * y) := Nat.mul_le_mul_right _ (by omega)
    nlinarith
  have q0 : (0:ℚ) ≤ x / y := by positivity
  have h1 : ((n : ℤ) : ℚ) - 1 / 2 ≤ fl (x / y) := by
    rcases Nat.eq_zero_or_pos n with h0 | h0
    · rw [h0]; have := fl_nonneg q0; push_cast; linarith
    · have e := fl_exact (2 * (n : ℤ) - 1) (-1) (by rw [abs_le]; constructor <;> omega)
      have e' : ((2 * (n : ℤ) - 1 : ℤ) : ℚ) * 2 ^ (-1 : ℤ) = ((n : ℤ) : ℚ) - 1 / 2 := by
        push_cast; rw [zpow_neg_one]; ring
      rw [e'] at e
      rw [← e]
      apply fl_mono
      · have : (1:ℚ) ≤ ((n:ℤ) : ℚ) := by exact_mod_cast h0
        linarith
      · rw [le_div_iff₀ hy']
        have : (n : ℚ) * (2 * y) ≤ 2 * x + y := by exact_mod_cast hn1
        push_cast; linarith
  have h2 : fl ((x : ℚ) / y) < ((n : ℤ) : ℚ) + 1 / 2 := by
    have e := fl_err ((x : ℚ) / y)
    rw [abs_of_nonneg q0, abs_le] at e
    have hq : (x : ℚ) / y ≤ n + 1 / 2 - 1 / (2 * y) := by
      rw [div_le_iff₀ hy']
      have : (2 * x + y + 1 : ℚ) ≤ (n + 1) * (2 * y) := by exact_mod_cast hn2
      have e2 : ((n:ℚ) + 1 / 2 - 1 / (2 * y)) * y = n * y + y / 2 - 1 / 2 := by field_simp
      rw [e2]; linarith
    have hb : (x : ℚ) / y / 2 ^ 53 < 1 / (2 * y) := by
      rw [div_div, div_lt_div_iff₀ (by positivity) (by positivity)]
      have : (x : ℚ) ≤ 2 ^ 51 := by exact_mod_cast hx
      nlinarith
    push_cast; linarith [e.2]
  rw [goRound_eq (fl_nonneg q0) h1 h2]
  unfold toUint
  rw [if_pos ⟨by positivity, by exact_mod_cast lt_of_le_of_lt hn3 (by norm_num)⟩]
  simp

/-- First index of the values of message `x`: `x * L / p` rounded to nearest. -/
def winStart (L p x : ℕ) : ℕ := (2 * (x * L) + p) / (2 * p)

theorem winStart_zero (L p : ℕ) (hp : 0 < p) : winStart L p 0 = 0 := by
  unfold winStart
  exact Nat.div_eq_of_lt (by omega)

theorem winStart_p (L p : ℕ) (hp : 0 < p) : winStart L p p = L := by
  unfold winStart
  rw [show 2 * (p * L) + p = p + 2 * p * L by ring, Nat.add_mul_div_left _ _ (by omega),
    Nat.div_eq_of_lt (by omega), zero_add]

theorem winStart_mono (L p : ℕ) {x y : ℕ} (h : x ≤ y) : winStart L p x ≤ winStart L p y := by
  unfold winStart
  apply Nat.div_le_div_right
  have := Nat.mul_le_mul_right L h
  omega

theorem fillLoop_spec {R : Type} (y : R) (n i : ℕ) (raw : List R) (h : i + n ≤ raw.length) :
    ∃ out, fillLoop y n i raw = some out ∧ out.length = raw.length ∧
      ∀ t, out[t]? = if i ≤ t ∧ t < i + n then some y else raw[t]? := by
  induction n generalizing i raw with
  | zero =>
    refine ⟨raw, rfl, rfl, fun t => ?_⟩
    rw [if_neg (by omega)]
  | succ n ih =>
    obtain ⟨out, e, l, g⟩ := ih (i + 1) (raw.set i y) (by simp; omega)
    refine ⟨out, ?_, by simpa using l, fun t => ?_⟩
    · rw [fillLoop, if_pos (by omega), e]
    · rw [g t, List.getElem?_set]
      by_cases h1 : i + 1 ≤ t ∧ t < i + 1 + n
      · rw [if_pos h1, if_pos (by omega)]
      · rw [if_neg h1]
        by_cases h2 : i = t
        · rw [if_pos h2, if_pos (by omega), if_pos (by omega)]
        · rw [if_neg h2, if_neg (by omega)]

theorem fillMessages_spec {R : Type} (L p : ℕ) (hp : 0 < p) (hpL : p * L ≤ 2 ^ 51) (hp2 : p ≤ 2 ^ 53)
    (F : ℕ → R) (raw : List R) (hr : raw.length = L) (m : ℕ) (hm : m ≤ p) :
    ∃ out, (List.range m).foldlM (fillMessage L p F) raw = some out ∧ out.length = L ∧
      ∀ x, x < m → ∀ t, winStart L p x ≤ t → t < winStart L p (x + 1) → out[t]? = some (F x) := by
  induction m with
  | zero => exact ⟨raw, rfl, hr, fun x hx => absurd hx (by omega)⟩
  | succ m ih =>
    obtain ⟨out, e, l, g⟩ := ih (by omega)
    have b1 : m * L ≤ 2 ^ 51 := (Nat.mul_le_mul_right L (by omega : m ≤ p)).trans hpL
    have b2 : (m + 1) * L ≤ 2 ^ 51 := (Nat.mul_le_mul_right L hm).trans hpL
    have hmono := winStart_mono L p (by omega : m ≤ m + 1)
    have hle : winStart L p (m + 1) ≤ L := by
      have := winStart_mono L p hm
      rwa [winStart_p L p hp] at this
    obtain ⟨out', e', l', g'⟩ := fillLoop_spec (F m) (winStart L p (m + 1) - winStart L p m) (winStart L p m) out
      (by omega)
    refine ⟨out', ?_, by omega, ?_⟩
    · rw [List.range_succ, List.foldlM_append, e]
      show (fillMessage L p F out m).bind _ = _
      unfold fillMessage
      rw [divRoundInt_eq _ _ hp hp2 b1, divRoundInt_eq _ _ hp hp2 b2]
      simp only [Option.bind_some]
      rw [show (2 * (m * L) + p) / (2 * p) = winStart L p m from rfl,
        show (2 * ((m + 1) * L) + p) / (2 * p) = winStart L p (m + 1) from rfl, e']
      rfl
    · intro x hx t h1 h2
      rw [g' t]
      rcases Nat.lt_succ_iff_lt_or_eq.1 hx with h | h
      · have := winStart_mono L p (by omega : x + 1 ≤ m)
        rw [if_neg (by omega)]; exact g x h t h1 h2
      · subst h; rw [if_pos (by omega)]

theorem negLoop_get {R : Type} [Neg R] (n i : ℕ) (raw : List R) (h : i + n ≤ raw.length) :
    ∃ out, negLoop n (i : ℤ) raw = some out ∧ out.length = raw.length ∧
      ∀ t, out[t]? = if i ≤ t ∧ t < i + n then raw[t]?.map (fun x => -x) else raw[t]? := by
  induction n generalizing i raw with
  | zero =>
    refine ⟨raw, rfl, rfl, fun t => ?_⟩
    rw [if_neg (by omega)]
  | succ n ih =>
    obtain ⟨out, e, l, g⟩ := ih (i + 1) (raw.set i (-raw[i])) (by simp; omega)
    refine ⟨out, ?_, by simpa using l, fun t => ?_⟩
    · have hg : getI raw (i : ℤ) = some raw[i] := by
        unfold getI
        rw [if_pos (by omega), Int.toNat_natCast, List.getElem?_eq_getElem (by omega)]
      rw [negLoop, hg]
      simp only [Int.toNat_natCast]
      exact_mod_cast e
    · rw [g t, List.getElem?_set]
      by_cases h1 : i = t
      · subst h1
        rw [if_neg (by omega), if_pos rfl, if_pos (by omega), if_pos (by omega),
          List.getElem?_eq_getElem (by omega)]
        rfl
      · rw [if_neg h1]
        by_cases h2 : i + 1 ≤ t ∧ t < i + 1 + n
        · rw [if_pos h2, if_pos (by omega)]
        · rw [if_neg h2, if_neg (by omega)]

/-- The raw table: a copy of the message table, moved down by half a window, negated where it wraps. -/
theorem genLUTRaw_spec {R : Type} [Neg R] (w L p : ℕ) (F : ℕ → R) (raw : List R)
    (hr : raw.length = L) (hL0 : 0 < L) (hp : 0 < p) (hpw : 2 * p < 2 ^ w) (hp2 : p ≤ 2 ^ 52)
    (hpL : p * L ≤ 2 ^ 51) :
    ∃ out, genLUTRaw w L p F raw = some out ∧ out.length = L ∧
      ∀ x, x < p → ∀ u, winStart L p x ≤ u → u < winStart L p (x + 1) → u < L ∧
        ((L + p) / (2 * p) ≤ u → out[u - (L + p) / (2 * p)]? = some (F x)) ∧
        (u < (L + p) / (2 * p) → (L + p) / (2 * p) ≤ L ∧ out[u + L - (L + p) / (2 * p)]? = some (-F x)) := by
  have hLb : L ≤ 2 ^ 51 := (Nat.le_mul_of_pos_left L hp).trans hpL
  obtain ⟨r1, e1, l1, g1⟩ := fillMessages_spec L p hp hpL (by omega) F raw hr p le_rfl
  set O := (L + p) / (2 * p) with hO
  have hOL : O ≤ L := by
    rw [hO]; apply Nat.div_le_of_le_mul
    have : p ≤ p * L := Nat.le_mul_of_pos_right p hL0
    have : L ≤ p * L := Nat.le_mul_of_pos_left L hp
    nlinarith
  have e2 : divRoundInt L (2 * p % 2 ^ w) = some O := by
    rw [Nat.mod_eq_of_lt hpw, divRoundInt_eq _ _ (by omega) (by omega) hLb, hO]
    congr 1
    rw [show 2 * L + 2 * p = 2 * (L + p) by ring, Nat.mul_div_mul_left _ _ (by norm_num)]
  clear_value O
  obtain ⟨r2, e3, l2, g2⟩ := C44_rotateInPlace r1 (by intro h; rw [h] at l1; simp at l1; omega) (by omega)
    (-(O : ℤ)) (by omega)
  rw [l1] at l2 g2
  obtain ⟨r3, e4, l3, g3⟩ := negLoop_get O (L - O) r2 (by omega)
  refine ⟨r3, ?_, by omega, ?_⟩
  · unfold genLUTRaw
    rw [e1, Option.bind_some, e2, Option.bind_some, e3, Option.bind_some]
    have : ((L : ℤ) - (O : ℤ)) = ((L - O : ℕ) : ℤ) := by omega
    rw [this, e4]
  intro x hx u h1 h2
  have hu : u < L := by
    have := winStart_mono L p (by omega : x + 1 ≤ p)
    rw [winStart_p L p hp] at this; omega
  have hr1 := g1 x hx u h1 h2
  have g := g2 u hu
  refine ⟨hu, fun h => ?_, fun h => ⟨hOL, ?_⟩⟩
  · rw [g3, if_neg (by omega)]
    rw [show ((u : ℤ) + -(O : ℤ)) = ((u - O : ℕ) : ℤ) by omega,
      Int.emod_eq_of_lt (by omega) (by omega), Int.toNat_natCast] at g
    rw [g, hr1]
  · rw [g3, if_pos (by omega)]
    rw [show ((u : ℤ) + -(O : ℤ)) = ((u + L - O : ℕ) : ℤ) - L by omega, Int.sub_emod_right,
      Int.emod_eq_of_lt (by omega) (by omega), Int.toNat_natCast] at g
    rw [g, hr1]; rfl

/-- Interleaving the slots gives back the raw table. -/
theorem inter_lutSlots {R : Type} (f N : ℕ) [NeZero f] [NeZero N] (raw : List R) (h : raw.length = f * N)
    (t : ℕ) (ht : t < f * N) : raw[t]? = some (Poly.inter (lutSlots f N raw h) ⟨t, ht⟩) := by
  rw [Poly.inter_apply, List.getElem?_eq_getElem (by omega)]
  congr 1
  have e : t / f * f + t % f = t := by rw [mul_comm]; exact Nat.div_add_mod t f
  show raw[t]'(by omega) = raw[t / f * f + t % f]'(by omega)
  congr 1
  exact e.symm

/-- **C15 (windows).** Generation succeeds, and the table of degree `f * N` (interleaving the `f`
polynomials) has the value `F x` at `z` whenever `z` plus half a window falls into the window of `x`.
Windows and the half window are rounded to nearest. -/
theorem C15_windows {R : Type} [AddCommGroup R] (w f N p : ℕ) [NeZero f] [NeZero N] (F : ℕ → R) (raw : List R)
    (hr : raw.length = f * N) (hp : 0 < p) (hpw : 2 * p < 2 ^ w) (hp2 : p ≤ 2 ^ 52)
    (hpL : p * (f * N) ≤ 2 ^ 51) :
    ∃ V, genLUTCustomFull w f N p F raw = some V ∧
      ∀ x, x < p → ∀ z : ℤ,
        (winStart (f * N) p x : ℤ) ≤ z + ((f * N + p) / (2 * p) : ℕ) →
        z + ((f * N + p) / (2 * p) : ℕ) < winStart (f * N) p (x + 1) →
        Poly.at' (Poly.inter V) z = F x := by
  have hL0 : 0 < f * N := Nat.mul_pos (NeZero.pos f) (NeZero.pos N)
  obtain ⟨out, e, l, g⟩ := genLUTRaw_spec w (f * N) p F raw hr hL0 hp hpw hp2 hpL
  refine ⟨lutSlots f N out l, ?_, ?_⟩
  · unfold genLUTCustomFull
    rw [e, Option.bind_some, dif_pos l]
  intro x hx z h1 h2
  have hT := inter_lutSlots f N out l
  generalize (f * N + p) / (2 * p) = O at *
  obtain ⟨u, hu⟩ := Int.eq_ofNat_of_zero_le (le_trans (by positivity) h1)
  obtain ⟨huL, ga, gb⟩ := g x hx u (by omega) (by omega)
  rcases le_or_gt O u with h | h
  · have e1 := ga h
    rw [hT (u - O) (by omega)] at e1
    rw [show z = ((u - O : ℕ) : ℤ) by omega, Poly.at_natCast _ _ (by omega)]
    exact Option.some.inj e1
  · obtain ⟨hOL, e1⟩ := gb h
    rw [hT (u + f * N - O) (by omega)] at e1
    rw [show z = ((u + f * N - O : ℕ) : ℤ) - (f * N : ℕ) by omega, Poly.at_sub_N,
      Poly.at_natCast _ _ (by omega), Option.some.inj e1, neg_neg]

/-- The rounded windows contain everything up to one index away from the exact window borders. -/
theorem window_close (L p x : ℕ) (hp : 0 < p) (z : ℤ) (h : 2 * |z * p - x * L| + 2 * p ≤ L) :
    (winStart L p x : ℤ) ≤ z + ((L + p) / (2 * p) : ℕ) ∧
    z + ((L + p) / (2 * p) : ℕ) < winStart L p (x + 1) := by
  have a1 : winStart L p x * (2 * p) ≤ 2 * (x * L) + p := Nat.div_mul_le_self _ _
  have a2 : 2 * ((x + 1) * L) + p < (winStart L p (x + 1) + 1) * (2 * p) := by
    rw [mul_comm (winStart L p (x + 1) + 1)]; exact Nat.lt_mul_div_succ _ (by omega)
  have a3 : (L + p) / (2 * p) * (2 * p) ≤ L + p := Nat.div_mul_le_self _ _
  have a4 : L + p < ((L + p) / (2 * p) + 1) * (2 * p) := by
    rw [mul_comm ((L + p) / (2 * p) + 1)]; exact Nat.lt_mul_div_succ _ (by omega)
  set W := winStart L p x
  set W' := winStart L p (x + 1)
  set O := (L + p) / (2 * p)
  have hp' : (0:ℤ) < p := by exact_mod_cast hp
  zify at a1 a2 a3 a4
  have hb := abs_le.1 (show |z * p - x * L| ≤ |z * p - x * L| from le_rfl)
  constructor
  · by_contra hc
    have : (z + O + 1) * (2 * p) ≤ W * (2 * p) := mul_le_mul_of_nonneg_right (by omega) (by omega)
    nlinarith
  · by_contra hc
    have : (W' : ℤ) * (2 * p) ≤ (z + O) * (2 * p) := mul_le_mul_of_nonneg_right (by omega) (by omega)
    nlinarith

/-- **C15.** The table has the value `F x` at every index `z` with `|z - x L/p| ≤ L/(2p) - 1`, and
`-F x` half a period (`L`) away from there. -/
theorem C15_genLUT {R : Type} [AddCommGroup R] (w f N p : ℕ) [NeZero f] [NeZero N] (F : ℕ → R) (raw : List R)
    (hr : raw.length = f * N) (hp : 0 < p) (hpw : 2 * p < 2 ^ w) (hp2 : p ≤ 2 ^ 52)
    (hpL : p * (f * N) ≤ 2 ^ 51) :
    ∃ V, genLUTCustomFull w f N p F raw = some V ∧
      ∀ x, x < p → ∀ z : ℤ, 2 * |z * p - x * (f * N : ℕ)| + 2 * p ≤ (f * N : ℕ) →
        Poly.at' (Poly.inter V) z = F x ∧ Poly.at' (Poly.inter V) (z + (f * N : ℕ)) = -F x := by
  obtain ⟨V, e, h⟩ := C15_windows w f N p F raw hr hp hpw hp2 hpL
  refine ⟨V, e, fun x hx z hz => ?_⟩
  have hw := window_close (f * N) p x hp z hz
  have := h x hx z hw.1 hw.2
  exact ⟨this, by rw [Poly.at_add_N, this]⟩

/-- **C15 (exact windows).** When `2p` divides the table size the windows are exact half-open
intervals, and every index belongs to one. -/
theorem C15_exact_windows {R : Type} [AddCommGroup R] (w f N p c : ℕ) [NeZero f] [NeZero N] (F : ℕ → R)
    (raw : List R) (hr : raw.length = f * N) (hp : 0 < p) (hpw : 2 * p < 2 ^ w) (hp2 : p ≤ 2 ^ 52)
    (hpL : p * (f * N) ≤ 2 ^ 51) (hc : f * N = 2 * p * c) :
    ∃ V, genLUTCustomFull w f N p F raw = some V ∧
      ∀ x, x < p → ∀ z : ℤ, 2 * c * x - c ≤ z → z < 2 * c * x + c → Poly.at' (Poly.inter V) z = F x := by
  obtain ⟨V, e, h⟩ := C15_windows w f N p F raw hr hp hpw hp2 hpL
  refine ⟨V, e, fun x hx z h1 h2 => ?_⟩
  have hW : ∀ y, winStart (f * N) p y = 2 * c * y := by
    intro y
    unfold winStart
    rw [hc, show 2 * (y * (2 * p * c)) + p = p + 2 * p * (2 * c * y) by ring,
      Nat.add_mul_div_left _ _ (by omega), Nat.div_eq_of_lt (by omega), zero_add]
  have hO : (f * N + p) / (2 * p) = c := by
    rw [hc, add_comm, Nat.add_mul_div_left _ _ (by omega), Nat.div_eq_of_lt (by omega), zero_add]
  apply h x hx z
  · rw [hW, hO]; push_cast; linarith
  · rw [hW, hO]; push_cast; linarith

/-- The same for `GenLUT`: values are encodings of `F x`. -/
theorem C15_genLUT_encoded {w : ℕ} (f N : ℕ) [NeZero f] [NeZero N] (p scale : BitVec w) (F : ℕ → BitVec 64)
    (raw : List (BitVec w)) (hr : raw.length = f * N) (hp : p ≠ 0) (hpw : 2 * p.toNat < 2 ^ w)
    (hp2 : p.toNat ≤ 2 ^ 52) (hpL : p.toNat * (f * N) ≤ 2 ^ 51) :
    ∃ V, genLUTCustom f N p scale F raw = some V ∧
      ∀ x, x < p.toNat → ∀ z : ℤ, 2 * |z * p.toNat - x * (f * N : ℕ)| + 2 * p.toNat ≤ (f * N : ℕ) →
        Poly.at' (Poly.inter V) z = encodeLWECustom (F x) p scale ∧
        Poly.at' (Poly.inter V) (z + (f * N : ℕ)) = -encodeLWECustom (F x) p scale := by
  have hp0 : 0 < p.toNat := by
    rcases Nat.eq_zero_or_pos p.toNat with h0 | h0
    · exact absurd (BitVec.eq_of_toNat_eq (by simpa using h0)) hp
    · exact h0
  exact C15_genLUT w f N p.toNat _ raw hr hp0 hpw hp2 hpL

/-- A concrete table: 3 messages, 16 points as 2 polynomials of degree 8, dirty buffer. -/
example : (genLUTCustomFull 32 2 8 3 (fun x => (x : ℤ) + 1) (List.replicate 16 77)).map
      (fun V => List.ofFn fun i => Poly.toList (V i)) =
    some [[1, 2, 2, 2, 3, 3, 3, -1], [1, 2, 2, 2, 3, 3, -1, -1]] := by
  have h1 : (List.range 3).foldlM (fillMessage 16 3 (fun x => (x : ℤ) + 1)) (List.replicate 16 77) =
      some [1, 1, 1, 1, 1, 2, 2, 2, 2, 2, 2, 3, 3, 3, 3, 3] := by decide +kernel
  have h2 : divRoundInt 16 (2 * 3 % 2 ^ 32) = some 3 := by decide +kernel
  have h3 : genLUTRaw 32 (2 * 8) 3 (fun x => (x : ℤ) + 1) (List.replicate 16 77) =
      some [1, 1, 2, 2, 2, 2, 2, 2, 3, 3, 3, 3, 3, -1, -1, -1] := by
    unfold genLUTRaw
    rw [h1, Option.bind_some, h2, Option.bind_some, C44_rotateInPlace_eq]
    decide +kernel
  unfold genLUTCustomFull
  rw [h3, Option.bind_some]
  decide +kernel
end Tfhe
