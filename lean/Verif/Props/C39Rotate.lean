import Verif.Model.Fhew
import Verif.Props.C20
import Verif.Props.C36
import Verif.Props.C43

/-!
# C39: FHEW-style blind rotation
-/
namespace Tfhe
open Poly Bfv

/-! ### Powers of five -/

theorem five_pow_two_pow (m : ℕ) : ∃ t : ℤ, (5 : ℤ) ^ 2 ^ m = 1 + 2 ^ (m + 2) * (2 * t + 1) := by
  induction m with
  | zero => exact ⟨0, by norm_num⟩
  | succ m ih =>
    obtain ⟨t, h⟩ := ih
    refine ⟨t + 2 ^ m * (2 * t + 1) ^ 2, ?_⟩
    rw [pow_succ 2 m, pow_mul, h]
    ring

theorem five_gen (m : ℕ) (a : ℤ) (ha : a % 4 = 1) : ∃ i : ℕ, i < 2 ^ m ∧ (2 : ℤ) ^ (m + 2) ∣ a - 5 ^ i := by
  induction m with
  | zero => exact ⟨0, by norm_num, by norm_num; omega⟩
  | succ m ih =>
    obtain ⟨i, hi, c, hc⟩ := ih
    have h2 : (2 : ℕ) ^ (m + 1) = 2 ^ m + 2 ^ m := by ring
    rcases Int.even_or_odd' c with ⟨d, hd | hd⟩
    · refine ⟨i, by omega, d, ?_⟩
      rw [hc, hd]; ring
    · obtain ⟨t, ht⟩ := five_pow_two_pow m
      obtain ⟨u, hu⟩ : ∃ u : ℤ, (5 : ℤ) ^ i = 2 * u + 1 := (Odd.pow (by decide : Odd (5 : ℤ)) : Odd ((5 : ℤ) ^ i))
      refine ⟨i + 2 ^ m, by omega, d - (2 * u * t + u + t), ?_⟩
      have : a = 5 ^ i + 2 ^ (m + 2) * c := by rw [← hc]; ring
      rw [this, hd, pow_add 5 i, ht, hu]
      ring

/-- What `autIdxMap` must contain at the odd number `a`. -/
def AutRel (N a : ℕ) (v : ℤ) : Prop :=
  (∃ i : ℕ, (i = 0 ∨ i < N / 2) ∧ v = i ∧ (2 * N : ℤ) ∣ a - 5 ^ i) ∨
  (∃ i : ℕ, 0 < i ∧ i < N / 2 ∧ v = -(i : ℤ) ∧ (2 * N : ℤ) ∣ a + 5 ^ i) ∨
  (v = 2 * N ∧ (2 * N : ℤ) ∣ a + 1)

namespace Fhew

theorem setAt_spec {R : Type} (l : List R) (i : ℕ) (v : R) (h : i < l.length) :
    setAt l (i : ℤ) v = some (l.set i v) := by
  unfold setAt
  rw [if_pos ⟨by omega, by omega⟩]
  rfl

/-- The loop of `NewFHEWEvaluator`. -/
theorem autLoop_spec (N : ℕ) (hN : 0 < N) (c : ℕ) :
    ∃ l x, (List.range c).foldlM (autStep N) (List.replicate (2 * N) 0, 1) = some (l, x) ∧ l.length = 2 * N ∧
      x = 5 ^ c % (2 * N) ∧
      ∀ a v, l[a]? = some v → (∃ i < c, (v = (i : ℤ) ∧ a = 5 ^ i % (2 * N)) ∨
          (v = -(i : ℤ) ∧ a + 5 ^ i % (2 * N) = 2 * N)) ∨
        (∀ i < c, a ≠ 5 ^ i % (2 * N) ∧ a + 5 ^ i % (2 * N) ≠ 2 * N) := by
  induction c with
  | zero =>
    refine ⟨_, _, rfl, by simp, ?_, fun a v _ => Or.inr fun i hi => absurd hi (by omega)⟩
    rw [pow_zero, Nat.mod_eq_of_lt (by omega)]
  | succ c ih =>
    obtain ⟨l, x, e, hl, hx, h⟩ := ih
    have h5 : 5 ^ c % 2 = 1 := by rw [Nat.pow_mod]; norm_num
    have hx0 : 0 < x := by
      rcases Nat.eq_zero_or_pos x with h0 | h0
      · exfalso
        rw [h0] at hx
        have := Nat.dvd_of_mod_eq_zero hx.symm
        have := (Dvd.intro _ rfl : 2 ∣ 2 * N).trans this
        omega
      · exact h0
    have hxl : x < 2 * N := by rw [hx]; exact Nat.mod_lt _ (by omega)
    rw [List.range_succ, List.foldlM_append, e]
    refine ⟨(l.set x (c : ℤ)).set (2 * N - x) (-(c : ℤ)), x * 5 % (2 * N), ?_, by simpa using hl, ?_, ?_⟩
    · simp only [Option.bind_eq_bind, Option.bind_some, List.foldlM_cons, List.foldlM_nil, autStep]
      rw [setAt_spec _ _ _ (by omega)]
      simp only [Option.bind_some]
      rw [show ((2 * N : ℕ) : ℤ) - (x : ℤ) = ((2 * N - x : ℕ) : ℤ) by omega,
        setAt_spec _ _ _ (by simp only [List.length_set]; omega)]
      rfl
    · rw [hx, pow_succ, Nat.mod_mul_mod]
    · intro a v hv
      rw [List.getElem?_set, List.getElem?_set, List.length_set] at hv
      by_cases h1 : 2 * N - x = a
      · rw [if_pos h1, if_pos (by omega)] at hv
        refine Or.inl ⟨c, by omega, Or.inr ⟨(Option.some_injective _ hv).symm, ?_⟩⟩
        rw [← hx]; omega
      · rw [if_neg h1] at hv
        by_cases h2 : x = a
        · rw [if_pos h2, if_pos (by omega)] at hv
          exact Or.inl ⟨c, by omega, Or.inl ⟨(Option.some_injective _ hv).symm, by rw [← hx]; exact h2.symm⟩⟩
        · rw [if_neg h2] at hv
          rcases h a v hv with ⟨i, hi, h'⟩ | h'
          · exact Or.inl ⟨i, by omega, h'⟩
          · refine Or.inr fun i hi => ?_
            rcases Nat.lt_succ_iff_lt_or_eq.1 hi with h3 | rfl
            · exact h' i h3
            · rw [← hx]; exact ⟨fun h => h2 h.symm, fun h => h1 (by omega)⟩

/-- **C39 (discrete logarithms).** The table of `NewFHEWEvaluator` contains the discrete logarithm of every odd
number, with the sign; for every power of two. -/
theorem autIdxMap_spec (logN : ℕ) :
    ∃ l, autIdxMap (2 ^ logN) = some l ∧ l.length = 2 * 2 ^ logN ∧
      ∀ a, a % 2 = 1 → a < 2 * 2 ^ logN → ∃ v, l[a]? = some v ∧ AutRel (2 ^ logN) a v := by
  set N := 2 ^ logN with hN
  have hN0 : 0 < N := by positivity
  obtain ⟨l, x, e, hl, hx, h⟩ := autLoop_spec N hN0 (N / 2)
  unfold autIdxMap
  rw [e]
  simp only [Option.bind_some]
  rw [show ((2 * N : ℕ) : ℤ) - 1 = ((2 * N - 1 : ℕ) : ℤ) by omega, setAt_spec _ _ _ (by omega)]
  refine ⟨_, rfl, by simpa using hl, fun a ha1 ha2 => ?_⟩
  rw [List.getElem?_set]
  by_cases h1 : 2 * N - 1 = a
  · rw [if_pos h1, if_pos (by omega)]
    refine ⟨_, rfl, Or.inr (Or.inr ⟨by push_cast; rfl, 1, ?_⟩)⟩
    omega
  rw [if_neg h1]
  have hal : a < l.length := by omega
  refine ⟨l[a], List.getElem?_eq_getElem hal, ?_⟩
  have hmod : ∀ i : ℕ, (2 * N : ℤ) ∣ (5 : ℤ) ^ i - (5 ^ i % (2 * N) : ℕ) := by
    intro i
    refine ⟨(5 ^ i / (2 * N) : ℕ), ?_⟩
    have := Nat.mod_add_div (5 ^ i) (2 * N)
    have h' : ((5 ^ i % (2 * N) : ℕ) : ℤ) + 2 * N * (5 ^ i / (2 * N) : ℕ) = 5 ^ i := by exact_mod_cast this
    linarith
  rcases h a _ (List.getElem?_eq_getElem hal) with ⟨i, hi, ⟨h2, h3⟩ | ⟨h2, h3⟩⟩ | h2
  · refine Or.inl ⟨i, Or.inr hi, h2, ?_⟩
    rw [h3]
    have := (hmod i).neg_right
    rwa [neg_sub] at this
  · have h3' : (a : ℤ) + (5 ^ i % (2 * N) : ℕ) = 2 * N := by exact_mod_cast h3
    refine Or.inr (Or.inl ⟨i, ?_, hi, h2, ?_⟩)
    · rcases Nat.eq_zero_or_pos i with rfl | h0
      · exfalso
        rw [pow_zero, Nat.mod_eq_of_lt (by omega)] at h3
        omega
      · exact h0
    · have : (a : ℤ) + 5 ^ i = (5 ^ i - (5 ^ i % (2 * N) : ℕ)) + 2 * N := by linarith
      rw [this]
      exact dvd_add (hmod i) dvd_rfl
  · exfalso
    cases logN with
    | zero => simp [hN] at ha2 h1; omega
    | succ m =>
      have e1 : N / 2 = 2 ^ m := by rw [hN, pow_succ]; omega
      have e2 : (2 * N : ℤ) = 2 ^ (m + 2) := by rw [hN]; push_cast; ring
      have lift : ∀ i b : ℕ, b < 2 * N → (2 * N : ℤ) ∣ (b : ℤ) - 5 ^ i → b = 5 ^ i % (2 * N) := by
        intro i b hb hd
        have h3 := dvd_add hd (hmod i)
        rw [sub_add_sub_cancel] at h3
        have hlt : 5 ^ i % (2 * N) < 2 * N := Nat.mod_lt _ (by omega)
        have : (b : ℤ) - (5 ^ i % (2 * N) : ℕ) = 0 := by
          apply Int.eq_zero_of_abs_lt_dvd h3
          rw [abs_lt]; constructor <;> omega
        omega
      have h4 : a % 4 = 1 ∨ a % 4 = 3 := by omega
      rcases h4 with h4 | h4
      · obtain ⟨i, hi, hd⟩ := five_gen m a (by omega)
        rw [← e2] at hd
        exact (h2 i (by omega)).1 (lift i a ha2 hd)
      · obtain ⟨i, hi, hd⟩ := five_gen m (2 * N - a : ℤ) (by rw [e2, pow_add]; omega)
        rw [← e2] at hd
        have hd' : (2 * N : ℤ) ∣ ((2 * N - a : ℕ) : ℤ) - 5 ^ i := by
          rw [show ((2 * N - a : ℕ) : ℤ) = 2 * N - a by omega]; exact hd
        have := lift i (2 * N - a) (by omega) hd'
        exact (h2 i (by omega)).2 (by omega)

/-! ### The sets of indices -/

theorem ctAutIdx_spec {w : ℕ} (N dim : ℕ) (aut : List ℤ) (ct : ℕ → BitVec w) (val : ℕ → ℤ)
    (hv : ∀ i, i < dim → aut[switch w N (-ct (i + 1))]? = some (val i)) :
    ∃ M, ctAutIdx N dim aut ct = some M ∧ ∀ v, M v = (List.range dim).filter (fun i => val i = v) := by
  unfold ctAutIdx
  induction dim with
  | zero => exact ⟨_, rfl, fun v => rfl⟩
  | succ d ih =>
    obtain ⟨M, e, h⟩ := ih (fun i hi => hv i (by omega))
    rw [List.range_succ, List.foldlM_append, e]
    refine ⟨Function.update M (val d) (M (val d) ++ [d]), ?_, fun v => ?_⟩
    · simp only [Option.bind_eq_bind, Option.bind_some, List.foldlM_cons, List.foldlM_nil, hv d (by omega)]
      rfl
    · rw [List.filter_append]
      by_cases hd : v = val d
      · rw [hd, Function.update_self, h]
        simp
      · rw [Function.update_of_ne hd, h]
        simp [Ne.symm hd]

theorem sum_map_filter {A : Type} [AddCommMonoid A] (dim : ℕ) (val : ℕ → ℤ) (v : ℤ) (f : ℕ → A) :
    (((List.range dim).filter (fun i => val i = v)).map f).sum
      = ∑ j ∈ Finset.range dim, if val j = v then f j else 0 := by
  induction dim with
  | zero => rfl
  | succ d ih =>
    rw [List.range_succ, List.filter_append, List.map_append, List.sum_append, ih, Finset.sum_range_succ]
    by_cases h : val d = v <;> simp [h]

/-- Exactly one of the sets contains an index. -/
theorem pick_sum {A : Type} [AddCommMonoid A] (N H : ℕ) (hN : 0 < N) (v : ℤ) (α β : ℕ → A) (γ δ : A) :
    let T := (∑ i ∈ Finset.range H, if v = -((i + 1 : ℕ) : ℤ) then α (i + 1) else 0) + (if v = 2 * N then γ else 0)
      + (∑ i ∈ Finset.range H, if v = ((i + 1 : ℕ) : ℤ) then β (i + 1) else 0) + (if v = 0 then δ else 0)
    (v = 0 → T = δ) ∧ (∀ i : ℕ, H < 2 * N → 0 < i → i ≤ H → v = i → T = β i) ∧
      (∀ i : ℕ, 0 < i → i ≤ H → v = -(i : ℤ) → T = α i) ∧ (H < 2 * N → v = 2 * N → T = γ) := by
  intro T
  have z1 : (∀ i : ℕ, i < H → v ≠ -((i + 1 : ℕ) : ℤ)) →
      (∑ i ∈ Finset.range H, if v = -((i + 1 : ℕ) : ℤ) then α (i + 1) else 0) = 0 := fun h =>
    Finset.sum_eq_zero fun i hi => if_neg (h i (Finset.mem_range.1 hi))
  have z2 : (∀ i : ℕ, i < H → v ≠ ((i + 1 : ℕ) : ℤ)) →
      (∑ i ∈ Finset.range H, if v = ((i + 1 : ℕ) : ℤ) then β (i + 1) else 0) = 0 := fun h =>
    Finset.sum_eq_zero fun i hi => if_neg (h i (Finset.mem_range.1 hi))
  refine ⟨fun h => ?_, fun i hH h0 hi h => ?_, fun i h0 hi h => ?_, fun hH h => ?_⟩
  · show _ + _ + _ + _ = _
    rw [z1 (fun i _ => by omega), z2 (fun i _ => by omega), if_neg (by omega), if_pos h]
    simp
  · show _ + _ + _ + _ = _
    rw [z1 (fun i _ => by omega), if_neg (by omega), if_neg (by omega),
      Finset.sum_eq_single (i - 1) (fun b hb hne => if_neg (by omega))
        (fun hb => absurd (Finset.mem_range.2 (by omega)) hb), if_pos (by omega), show i - 1 + 1 = i by omega]
    simp
  · show _ + _ + _ + _ = _
    rw [z2 (fun i _ => by omega), if_neg (by omega), if_neg (by omega),
      Finset.sum_eq_single (i - 1) (fun b hb hne => if_neg (by omega))
        (fun hb => absurd (Finset.mem_range.2 (by omega)) hb), if_pos (by omega), show i - 1 + 1 = i by omega]
    simp
  · show _ + _ + _ + _ = _
    rw [z1 (fun i _ => by omega), z2 (fun i _ => by omega), if_pos h, if_neg (by omega)]
    simp

/-! ### The loops -/

section
variable {w N n : ℕ} [NeZero N]
local notation "Pl" => Poly N (BitVec w)

theorem five_pow_odd (i : ℕ) : (5 : ℤ) ^ i % 2 = 1 :=
  Int.odd_iff.1 (Odd.pow (by decide : Odd (5 : ℤ)))

/-- What the loops need to know about the keys: products with key element `j` multiply by `X^(s j)`, and all the Galois
keys that are used exist. -/
structure RotOk (K : Keys w N n) (sk : Fin (n + 1) → Pl) (s : ℕ → ℤ) (dim : ℕ) (err : Errs w N n) (out pb X Y : ℕ) :
    Prop where
  ext : ∀ j, j < dim → ∀ m, pabs (phase sk (ctOf (n + 1) (externalProdTo (polyGadget N K.g) (n + 1) out (K.brk j) out
      (err.ext j) m) out) - mono N (BitVec w) (s j) * phase sk (ctOf (n + 1) m out)) ≤ X
  flush : ∀ h i p skip, 0 < skip → skip ≤ K.window → ∀ m, ∃ m', flush K out pb skip (err.perm h i p) m = some m' ∧
    pabs (phase sk (ctOf (n + 1) m' out) - subst (5 ^ skip) (phase sk (ctOf (n + 1) m out))) ≤ Y ∧
    ∀ v i, v ≠ out → v ≠ pb → m' v i = m v i
  turn : ∀ m, ∃ m', permuteTo (fun _ => K.gal[0]?) out out pb (-5#64) (err.perm false 0 true) m = some m' ∧
    pabs (phase sk (ctOf (n + 1) m' out) - subst (-5) (phase sk (ctOf (n + 1) m out))) ≤ Y ∧
    ∀ v i, v ≠ out → v ≠ pb → m' v i = m v i

theorem subst_one_eq (p : Pl) : subst 1 p = p := by
  have h : IsCoprime (1 : ℤ) (2 * N) := isCoprime_one_left
  refine at_ext fun z => ?_
  have := at_subst 1 (by norm_num) h p z
  rwa [one_mul] at this

theorem near_trans {a b c : Pl} {x y : ℕ} (h1 : pabs (a - b) ≤ x) (h2 : pabs (b - c) ≤ y) : pabs (a - c) ≤ y + x := by
  rw [← sub_add_sub_cancel a b c, add_comm y]
  exact (pabs_add_le _ _).trans (Nat.add_le_add h1 h2)

theorem near_mono {a b : Pl} {x : ℕ} (d : ℤ) (h : pabs (a - b) ≤ x) :
    pabs (mono N (BitVec w) d * a - mono N (BitVec w) d * b) ≤ x := by
  rw [← mul_sub, pabs_mono_mul]; exact h

theorem near_subst (logN : ℕ) (hN : N = 2 ^ logN) {a b : Pl} {x : ℕ} (d : ℤ) (hd : d % 2 = 1) (h : pabs (a - b) ≤ x) :
    pabs (subst d a - subst d b) ≤ x := by
  have : subst d a - subst d b = subst d (a - b) := ((substHom N (BitVec w) d hd).map_sub a b).symm
  rw [this]
  exact (pabs_subst_le logN hN d hd _).trans h

theorem mulKeys_spec {K : Keys w N n} {sk : Fin (n + 1) → Poly N (BitVec w)} {s : ℕ → ℤ} {dim : ℕ} {err : Errs w N n}
    {out pb X Y : ℕ} (ok : RotOk K sk s dim err out pb X Y) (js : List ℕ) (hjs : ∀ j ∈ js, j < dim) (m : Mem Pl)
    (A : Pl) (E : ℕ) (h : pabs (phase sk (ctOf (n + 1) m out) - A) ≤ E) :
    pabs (phase sk (ctOf (n + 1) (mulKeys K out err.ext js m) out) - mono N (BitVec w) (js.map s).sum * A)
      ≤ E + js.length * X ∧ ∀ v i, v ≠ out → mulKeys K out err.ext js m v i = m v i := by
  unfold mulKeys
  induction js generalizing m A E with
  | nil => simpa using h
  | cons j js ih =>
    rw [List.foldl_cons]
    have h1 := ok.ext j (hjs j (List.mem_cons_self ..)) m
    obtain ⟨i1, i2⟩ := ih (fun j' hj' => hjs j' (List.mem_cons_of_mem _ hj')) _ (mono N (BitVec w) (s j) * A) (E + X)
      (near_trans h1 (near_mono (s j) h))
    refine ⟨?_, fun v i hv => (i2 v i hv).trans ((mapLoopI_whole _ _ _ _ _ _).2 v i (Or.inl hv))⟩
    rw [List.map_cons, List.sum_cons, add_comm (s j), mono_add, mul_assoc, List.length_cons]
    refine i1.trans (le_of_eq (by ring))

theorem sweepStep_spec {K : Keys w N n} {sk : Fin (n + 1) → Poly N (BitVec w)} {s : ℕ → ℤ} {dim : ℕ} {err : Errs w N n}
    {out pb X Y : ℕ} (logN : ℕ) (hN : N = 2 ^ logN) (ok : RotOk K sk s dim err out pb X Y) (half : Bool)
    (set : ℕ → List ℕ) (i : ℕ) (hset : ∀ j ∈ set i, j < dim) (st : Mem Pl × ℕ) (hst : st.2 < K.window)
    (A : Pl) (E : ℕ) (h : pabs (subst (5 ^ st.2) (phase sk (ctOf (n + 1) st.1 out)) - A) ≤ E) :
    ∃ st', sweepStep K out pb set err.ext (err.perm half) st i = some st' ∧ st'.2 < K.window ∧ (i = 1 → st'.2 = 0) ∧
      (∃ q, q * K.window + st'.2 ≤ st.2 + 1 + (if i = 1 then K.window else 0) ∧
        pabs (subst (5 ^ st'.2) (phase sk (ctOf (n + 1) st'.1 out))
          - mono N (BitVec w) (5 * ((set i).map s).sum) * subst 5 A) ≤ E + (set i).length * (X + Y) + q * Y) ∧
      ∀ v t, v ≠ out → v ≠ pb → st'.1 v t = st.1 v t := by
  -- the products
  obtain ⟨st1, e1, hle, hph, hfr⟩ : ∃ st1, applySet K out pb (set i) err.ext (err.perm half i false) st = some st1 ∧
      st1.2 ≤ st.2 ∧ pabs (subst (5 ^ st1.2) (phase sk (ctOf (n + 1) st1.1 out))
        - mono N (BitVec w) ((set i).map s).sum * A) ≤ E + (set i).length * (X + Y) ∧
      ∀ v t, v ≠ out → v ≠ pb → st1.1 v t = st.1 v t := by
    unfold applySet
    by_cases hs : set i = []
    · rw [if_neg (by simpa using hs)]
      refine ⟨st, rfl, le_rfl, ?_, fun _ _ _ _ => rfl⟩
      rw [hs]
      simpa using h
    · rw [if_pos hs]
      have hlen : 1 ≤ (set i).length := List.length_pos_iff.2 hs
      have hbound : E + Y + (set i).length * X ≤ E + (set i).length * (X + Y) := by
        have := Nat.mul_le_mul_right Y hlen
        rw [Nat.mul_add]; omega
      by_cases h0 : st.2 = 0
      · rw [if_neg (by simpa using h0)]
        have h' : pabs (phase sk (ctOf (n + 1) st.1 out) - A) ≤ E := by
          have := h
          rwa [h0, pow_zero, subst_one_eq] at this
        obtain ⟨m1, m2⟩ := mulKeys_spec ok (set i) hset st.1 A E h'
        refine ⟨(mulKeys K out err.ext (set i) st.1, st.2), rfl, le_rfl, ?_, fun v t hv _ => m2 v t hv⟩
        show pabs (subst (5 ^ st.2) _ - _) ≤ _
        rw [h0, pow_zero, subst_one_eq]
        exact m1.trans (le_trans (by omega) hbound)
      · rw [if_pos h0]
        obtain ⟨m', f1, f2, f3⟩ := ok.flush half i false st.2 (by omega) hst.le st.1
        obtain ⟨m1, m2⟩ := mulKeys_spec ok (set i) hset m' A (E + Y) (near_trans f2 h)
        refine ⟨(mulKeys K out err.ext (set i) m', 0), by rw [f1]; rfl, Nat.zero_le _, ?_,
          fun v t hv hv' => (m2 v t hv).trans (f3 v t hv hv')⟩
        show pabs (subst (5 ^ 0) _ - _) ≤ _
        rw [pow_zero, subst_one_eq]
        exact m1.trans hbound
  -- the automorphism
  have hA : subst 5 (mono N (BitVec w) ((set i).map s).sum * A)
      = mono N (BitVec w) (5 * ((set i).map s).sum) * subst 5 A := by
    rw [subst_mul 5 (by norm_num), subst_mono 5 (by norm_num)]
  have h5 : pabs (subst (5 ^ (st1.2 + 1)) (phase sk (ctOf (n + 1) st1.1 out))
      - mono N (BitVec w) (5 * ((set i).map s).sum) * subst 5 A) ≤ E + (set i).length * (X + Y) := by
    rw [← hA, pow_succ, mul_comm, ← subst_subst 5 _ (by norm_num)]
    exact near_subst logN hN 5 (by norm_num) hph
  unfold sweepStep
  rw [e1]
  simp only [Option.bind_some]
  by_cases hc : st1.2 + 1 = K.window ∨ i = 1
  · rw [if_pos hc]
    obtain ⟨m', f1, f2, f3⟩ := ok.flush half i true (st1.2 + 1) (by omega) (by omega) st1.1
    refine ⟨(m', 0), by rw [f1]; rfl, by show 0 < K.window; omega, fun _ => rfl, ⟨1, ?_, ?_⟩,
      fun v t hv hv' => (f3 v t hv hv').trans (hfr v t hv hv')⟩
    · show 1 * K.window + 0 ≤ _
      rcases hc with hc | hc
      · omega
      · rw [if_pos hc]; omega
    · show pabs (subst (5 ^ 0) _ - _) ≤ _
      rw [pow_zero, subst_one_eq, one_mul]
      exact near_trans f2 h5
  · rw [if_neg hc]
    refine ⟨(st1.1, st1.2 + 1), rfl, by show st1.2 + 1 < K.window; omega, fun h => absurd (Or.inr h) hc, ⟨0, ?_, ?_⟩, hfr⟩
    · show 0 * K.window + (st1.2 + 1) ≤ _
      omega
    · rw [zero_mul, add_zero]; exact h5

theorem sweep_spec {K : Keys w N n} {sk : Fin (n + 1) → Poly N (BitVec w)} {s : ℕ → ℤ} {dim : ℕ} {err : Errs w N n}
    {out pb X Y : ℕ} (logN : ℕ) (hN : N = 2 ^ logN) (ok : RotOk K sk s dim err out pb X Y) (half : Bool)
    (set : ℕ → List ℕ) (H : ℕ) (hset : ∀ i, ∀ j ∈ set i, j < dim) (st : Mem Pl × ℕ) (hst : st.2 < K.window)
    (A : Pl) (E : ℕ) (h : pabs (subst (5 ^ st.2) (phase sk (ctOf (n + 1) st.1 out)) - A) ≤ E) :
    ∃ st', (List.range' 1 H).reverse.foldlM (sweepStep K out pb set err.ext (err.perm half)) st = some st' ∧
      st'.2 = (if H = 0 then st.2 else 0) ∧
      (∃ q, q * K.window ≤ st.2 + H + K.window ∧
        pabs (subst (5 ^ st'.2) (phase sk (ctOf (n + 1) st'.1 out))
          - mono N (BitVec w) (∑ i ∈ Finset.range H, 5 ^ (i + 1) * ((set (i + 1)).map s).sum) * subst (5 ^ H) A)
          ≤ E + (∑ i ∈ Finset.range H, (set (i + 1)).length) * (X + Y) + q * Y) ∧
      ∀ v t, v ≠ out → v ≠ pb → st'.1 v t = st.1 v t := by
  induction H generalizing st A E with
  | zero =>
    refine ⟨st, rfl, rfl, ⟨0, by omega, ?_⟩, fun _ _ _ _ => rfl⟩
    simpa [subst_one_eq] using h
  | succ H ih =>
    rw [List.range'_concat, List.reverse_append, List.reverse_singleton, List.singleton_append, List.foldlM_cons,
      show 1 + 1 * H = H + 1 by omega]
    obtain ⟨st1, e1, l1, z1, ⟨q1, b1, p1⟩, f1⟩ := sweepStep_spec logN hN ok half set (H + 1) (hset _) st hst A E h
    obtain ⟨st2, e2, l2, ⟨q2, b2, p2⟩, f2⟩ := ih st1 l1 _ _ p1
    refine ⟨st2, by rw [e1]; exact e2, ?_, ?_, fun v t hv hv' => (f2 v t hv hv').trans (f1 v t hv hv')⟩
    · rw [if_neg (by omega), l2]
      split
      · exact z1 (by omega)
      · rfl
    · by_cases hH : H = 0
      · subst hH
        -- the last iteration: no further automorphism
        simp only [List.range'_zero, List.reverse_nil, List.foldlM_nil] at e2
        obtain rfl : st1 = st2 := Option.some_injective _ e2
        refine ⟨q1, ?_, ?_⟩
        · rw [if_pos rfl] at b1
          omega
        · simp only [Finset.range_one, Finset.sum_singleton, zero_add, pow_one]
          exact p1
      · refine ⟨q1 + q2, ?_, ?_⟩
        · rw [if_neg (by omega)] at b1
          rw [Nat.add_mul]
          omega
        · rw [Finset.sum_range_succ, Finset.sum_range_succ]
          have e3 : mono N (BitVec w) ((∑ i ∈ Finset.range H, 5 ^ (i + 1) * ((set (i + 1)).map s).sum)
              + 5 ^ (H + 1) * ((set (H + 1)).map s).sum) * subst (5 ^ (H + 1)) A
              = mono N (BitVec w) (∑ i ∈ Finset.range H, 5 ^ (i + 1) * ((set (i + 1)).map s).sum)
                * subst (5 ^ H) (mono N (BitVec w) (5 * ((set (H + 1)).map s).sum) * subst 5 A) := by
            rw [subst_mul _ (five_pow_odd H), subst_mono _ (five_pow_odd H), subst_subst _ _ (five_pow_odd H), mono_add,
              mul_assoc]
            congr 3
            ring
          rw [e3]
          refine p2.trans (le_of_eq ?_)
          ring

/-! ### Blind rotation -/

theorem switch_odd (w N : ℕ) (hN : 0 < N) (x : BitVec w) : switch w N x % 2 = 1 ∧ switch w N x < 2 * N ∧
    (switch w N x = modSwitch w N x ∨ switch w N x = modSwitch w N x + 1) := by
  have h : ∀ y : ℕ, y ||| 1 = 2 * (y / 2) + 1 := by
    intro y
    apply Nat.eq_of_testBit_eq
    intro i
    cases i with
    | zero => simp
    | succ i =>
      rw [Nat.testBit_succ, Nat.testBit_succ, Nat.or_div_two]
      simp [Nat.mul_add_div]
  have hlt : modSwitch w N x < 2 * N := Nat.mod_lt _ (by omega)
  unfold switch
  rw [h]
  omega

/-- The exponent by which the table is rotated: the switched negated body plus the switched negated masks times the
elements of the key. -/
def rotExpS {w : ℕ} (N dim : ℕ) (s : ℕ → ℤ) (ct : ℕ → BitVec w) : ℤ :=
  switch w N (-ct 0) + ∑ i ∈ Finset.range dim, (switch w N (-ct (i + 1)) : ℤ) * s i

theorem subst_of_one (logN : ℕ) (hN : N = 2 ^ logN) (d : ℤ) (hd : (2 * N : ℤ) ∣ d - 1) (p : Pl) : subst d p = p := by
  have hd2 : d % 2 = 1 := by
    obtain ⟨c, hc⟩ := hd
    have : d = 1 + 2 * (N * c) := by linarith
    omega
  refine at_ext fun z => ?_
  rw [← at_subst d hd2 (coprime_of_odd logN hN d hd2) p z]
  refine at_congr _ ?_
  have : d * z = z + 2 * N * (hd.choose * z) := by linear_combination z * hd.choose_spec
  rw [this, Int.add_mul_emod_self_left]

omit [NeZero N] in
theorem five_pow_half (logN : ℕ) (hN : N = 2 ^ logN) : (2 * N : ℤ) ∣ 5 ^ (N / 2 - 1) * 5 - 1 := by
  cases logN with
  | zero => rw [hN]; norm_num
  | succ m =>
    have e1 : N / 2 - 1 + 1 = 2 ^ m := by
      have : 0 < 2 ^ m := by positivity
      rw [hN, pow_succ]; omega
    obtain ⟨t, ht⟩ := five_pow_two_pow m
    rw [← pow_succ, e1, ht]
    refine ⟨2 * t + 1, ?_⟩
    rw [hN]; push_cast; ring

theorem near_pow_zero {a b : Pl} {x : ℕ} (h : pabs (a - b) ≤ x) : pabs (subst (5 ^ 0) a - b) ≤ x := by
  rwa [pow_zero, subst_one_eq]

theorem subst_chain (u v : ℤ) (hu : u % 2 = 1) (hv : v % 2 = 1) (a p c d e : ℤ) (lut : Pl) :
    mono N (BitVec w) a * (mono N (BitVec w) p * subst u (subst v (mono N (BitVec w) c *
      (mono N (BitVec w) d * subst u (mono N (BitVec w) e * subst v lut)))))
      = mono N (BitVec w) (a + p + u * v * (c + d) + u * v * u * e) * subst (u * v * u * v) lut := by
  have e1 : subst (u * v * u * v) lut = subst u (subst v (subst u (subst v lut))) := by
    rw [subst_subst u v hu, subst_subst (u * v), subst_subst (u * v * u)]
    · rw [Int.mul_emod, Int.mul_emod u v, hu, hv]; norm_num
    · rw [Int.mul_emod, hu, hv]; norm_num
  rw [e1, subst_mul u hu (mono N (BitVec w) e), subst_mul v hv, subst_mul v hv, subst_mul v hv, subst_mul u hu,
    subst_mul u hu, subst_mul u hu]
  simp only [subst_mono _ hu, subst_mono _ hv, ← mul_assoc, ← mono_add]
  congr 2
  ring

/-- The rotation, for any keys that satisfy `RotOk`. -/
theorem rotate_of_ok (logN : ℕ) (hN : N = 2 ^ logN) {K : Keys w N n} {sk : Fin (n + 1) → Poly N (BitVec w)}
    {s : ℕ → ℤ} {dim : ℕ} {err : Errs w N n} {out pb X Y : ℕ} (ok : RotOk K sk s dim err out pb X Y)
    (hwin : 0 < K.window) (aut : List ℤ) (haut : autIdxMap N = some aut) (ct : ℕ → BitVec w) (lut : Pl) (m : Mem Pl) :
    ∃ m', blindRotateTo K dim aut err out pb ct lut m = some m' ∧
      pabs (phase sk (ctOf (n + 1) m' out) - mono N (BitVec w) (rotExpS N dim s ct) * lut)
        ≤ dim * (X + Y) + (2 * ((N / 2 - 1) / K.window + 1) + 1) * Y ∧
      ∀ v i, v ≠ out → v ≠ pb → m' v i = m v i := by
  have hN0 : 0 < N := NeZero.pos N
  -- the sets
  obtain ⟨l, hl, -, hrel⟩ := autIdxMap_spec logN
  rw [← hN] at hl hrel
  obtain rfl : l = aut := Option.some_injective _ (hl.symm.trans haut)
  have hval : ∀ i, ∃ v, l[switch w N (-ct (i + 1))]? = some v ∧ AutRel N (switch w N (-ct (i + 1))) v := fun i =>
    hrel _ (switch_odd w N hN0 _).1 (switch_odd w N hN0 _).2.1
  choose val hv1 hv2 using hval
  obtain ⟨M, hM, hMs⟩ := ctAutIdx_spec N dim l ct val (fun i _ => hv1 i)
  have hmem : ∀ v, ∀ j ∈ M v, j < dim := by
    intro v j hj
    rw [hMs] at hj
    exact List.mem_range.1 (List.mem_of_mem_filter hj)
  set S : ℤ → ℤ := fun v => ((M v).map s).sum with hS
  set H := N / 2 - 1 with hH
  -- the start
  set b : ℤ := ((switch w N (-ct 0) : ℕ) : ℤ) with hb
  set m0 : Mem Pl := mapLoopI (fun _ _ _ _ => 0) out out out (List.range' 1 (n + 1))
    ((m.write out 0 (subst (-5) lut)).write out 0
      (mono N (BitVec w) (-5 * b) * (m.write out 0 (subst (-5) lut)) out 0)) with hm0
  have hm0' : ∀ v i, m0 v i = if v = out ∧ i ∈ List.range' 1 (n + 1) then 0 else
      if v = out ∧ i = 0 then mono N (BitVec w) (-5 * b) * subst (-5) lut else m v i := by
    intro v i
    rw [hm0, mapLoopI_spec _ _ _ _ _ List.nodup_range']
    congr 1
    by_cases h : v = out ∧ i = 0
    · simp [Mem.write, h]
    · simp [Mem.write, h]
  have hph0 : phase sk (ctOf (n + 1) m0 out) = mono N (BitVec w) (-5 * b) * subst (-5) lut := by
    unfold phase
    rw [Finset.sum_eq_zero, add_zero]
    · show m0 out 0 = _
      rw [hm0', if_neg (by simp), if_pos ⟨rfl, rfl⟩]
    · intro i _
      have : ctOf (n + 1) m0 out i.succ = 0 := by
        show m0 out (i.succ : ℕ) = 0
        rw [hm0', if_pos]
        refine ⟨rfl, List.mem_range'.2 ⟨i, i.2, by simp; omega⟩⟩
      rw [this, zero_mul]
  have hf0 : ∀ v i, v ≠ out → m0 v i = m v i := by
    intro v i hv
    rw [hm0', if_neg (by tauto), if_neg (by tauto)]
  set A0 := mono N (BitVec w) (-5 * b) * subst (-5) lut with hA0
  have h0 : pabs (subst (5 ^ 0) (phase sk (ctOf (n + 1) m0 out)) - A0) ≤ 0 := by
    rw [pow_zero, subst_one_eq, hph0, sub_self]
    exact (polyNorm N w).zero.le
  -- first half
  obtain ⟨st1, e1, z1, ⟨q1, b1, p1⟩, f1⟩ := sweep_spec logN hN ok false (fun i => M (-(i : ℤ))) H (fun i => hmem _)
    (m0, 0) hwin A0 0 h0
  have z1' : st1.2 = 0 := by rw [z1]; split <;> rfl
  rw [z1', pow_zero, subst_one_eq] at p1
  obtain ⟨p2, f2⟩ := mulKeys_spec ok (M (2 * N : ℕ)) (hmem _) st1.1 _ _ p1
  obtain ⟨m3, e3, p3, f3⟩ := ok.turn (mulKeys K out err.ext (M (2 * N : ℕ)) st1.1)
  have p3' := near_trans p3 (near_subst logN hN (-5) (by norm_num) p2)
  -- second half
  obtain ⟨st4, e4, z4, ⟨q4, b4, p4⟩, f4⟩ := sweep_spec logN hN ok true (fun i => M (i : ℤ)) H (fun i => hmem _)
    (m3, 0) hwin _ _ (near_pow_zero p3')
  have z4' : st4.2 = 0 := by rw [z4]; split <;> rfl
  rw [z4', pow_zero, subst_one_eq] at p4
  obtain ⟨p5, f5⟩ := mulKeys_spec ok (M 0) (hmem _) st4.1 _ _ p4
  refine ⟨mulKeys K out err.ext (M 0) st4.1, ?_, ?_, ?_⟩
  · unfold blindRotateTo sweep
    rw [hM]
    simp only [Option.bind_some]
    rw [← hm0, ← hH, e1]
    simp only [Option.bind_some]
    rw [z1', e3]
    simp only [Option.bind_some]
    rw [e4]
    rfl
  · -- the exponent
    have hu := five_pow_half logN hN
    rw [← hH] at hu
    set T : ℕ → ℤ := fun j =>
      (∑ i ∈ Finset.range H, if val j = -((i + 1 : ℕ) : ℤ) then (fun i => -(5 ^ i * s j)) (i + 1) else 0)
        + (if val j = 2 * N then -s j else 0)
        + (∑ i ∈ Finset.range H, if val j = ((i + 1 : ℕ) : ℤ) then (fun i => 5 ^ i * s j) (i + 1) else 0)
        + (if val j = 0 then s j else 0) with hT
    have hHN : H < 2 * N := by omega
    have hTj : ∀ j, (2 * N : ℤ) ∣ (switch w N (-ct (j + 1)) : ℤ) * s j - T j := by
      intro j
      obtain ⟨t0, tp, tm, tn⟩ := pick_sum N H hN0 (val j) (fun i => -(5 ^ i * s j)) (fun i => 5 ^ i * s j) (-s j) (s j)
      rcases hv2 j with ⟨i, hi, hvi, hd⟩ | ⟨i, h0, hi, hvi, hd⟩ | ⟨hvi, hd⟩
      · rcases Nat.eq_zero_or_pos i with rfl | hi0
        · have : T j = s j := t0 (by simpa using hvi)
          rw [this, show ∀ a : ℤ, a * s j - s j = (a - 5 ^ 0) * s j from fun a => by ring]
          exact Dvd.dvd.mul_right hd _
        · have : T j = 5 ^ i * s j := tp i hHN hi0 (by omega) hvi
          rw [this, ← sub_mul]
          exact Dvd.dvd.mul_right hd _
      · have : T j = -(5 ^ i * s j) := tm i h0 (by omega) hvi
        rw [this, show ∀ a : ℤ, a * s j - -(5 ^ i * s j) = (a + 5 ^ i) * s j from fun a => by ring]
        exact Dvd.dvd.mul_right hd _
      · have : T j = -s j := tn hHN hvi
        rw [this, show ∀ a : ℤ, a * s j - -s j = (a + 1) * s j from fun a => by ring]
        exact Dvd.dvd.mul_right hd _
    have hSv : ∀ v, S v = ∑ j ∈ Finset.range dim, if val j = v then s j else 0 := by
      intro v
      rw [hS]
      beta_reduce
      rw [hMs, sum_map_filter]
    have hsum : (∑ j ∈ Finset.range dim, T j) = -(∑ i ∈ Finset.range H, 5 ^ (i + 1) * S (-((i + 1 : ℕ) : ℤ)))
        - S (2 * N : ℕ) + (∑ i ∈ Finset.range H, 5 ^ (i + 1) * S ((i + 1 : ℕ) : ℤ)) + S 0 := by
      simp only [hSv, hT, Finset.sum_add_distrib]
      congr 1
      congr 1
      · rw [sub_eq_add_neg]
        congr 1
        · rw [Finset.sum_comm, ← Finset.sum_neg_distrib]
          refine Finset.sum_congr rfl fun i _ => ?_
          rw [Finset.mul_sum, ← Finset.sum_neg_distrib]
          refine Finset.sum_congr rfl fun j _ => ?_
          split <;> simp
        · rw [← Finset.sum_neg_distrib]
          refine Finset.sum_congr rfl fun j _ => ?_
          push_cast
          split <;> simp
      · rw [Finset.sum_comm]
        refine Finset.sum_congr rfl fun i _ => ?_
        rw [Finset.mul_sum]
        refine Finset.sum_congr rfl fun j _ => ?_
        split <;> simp
    have hexp : (2 * N : ℤ) ∣ rotExpS N dim s ct - (b + ∑ j ∈ Finset.range dim, T j) := by
      have : rotExpS N dim s ct - (b + ∑ j ∈ Finset.range dim, T j)
          = ∑ j ∈ Finset.range dim, ((switch w N (-ct (j + 1)) : ℤ) * s j - T j) := by
        rw [Finset.sum_sub_distrib, rotExpS]; ring
      rw [this]
      exact Finset.dvd_sum fun j _ => hTj j
    set Em := ∑ i ∈ Finset.range H, 5 ^ (i + 1) * S (-((i + 1 : ℕ) : ℤ)) with hEm
    set Ep := ∑ i ∈ Finset.range H, 5 ^ (i + 1) * S ((i + 1 : ℕ) : ℤ) with hEp
    have h5H := five_pow_odd H
    have hneg5 : (-5 : ℤ) % 2 = 1 := by norm_num
    have htarget : mono N (BitVec w) (S 0) * (mono N (BitVec w) Ep * subst (5 ^ H) (subst (-5)
        (mono N (BitVec w) (S (2 * N : ℕ)) * (mono N (BitVec w) Em * subst (5 ^ H) A0))))
        = mono N (BitVec w) (rotExpS N dim s ct) * lut := by
      obtain ⟨c, hc⟩ := hu
      have hone : subst (5 ^ H * -5 * 5 ^ H * -5) lut = lut := by
        refine subst_of_one logN hN _ ?_ lut
        refine ⟨c * (5 ^ H * 5 + 1), ?_⟩
        linear_combination (5 ^ H * 5 + 1) * hc
      rw [hA0, subst_chain _ _ h5H hneg5, hone]
      congr 1
      apply mono_congr
      obtain ⟨c', hc'⟩ := hexp
      have hrw : S 0 + Ep + 5 ^ H * -5 * (S (2 * N : ℕ) + Em) + 5 ^ H * -5 * 5 ^ H * (-5 * b)
          = rotExpS N dim s ct + 2 * N * (-c' - c * (S (2 * N : ℕ) + Em) + c * (5 ^ H * 5 + 1) * b) := by
        have := hsum
        linear_combination (-1) * hc' - (S (2 * N : ℕ) + Em) * hc + (5 ^ H * 5 + 1) * b * hc - this
      rw [hrw, Int.add_mul_emod_self_left]
    rw [htarget] at p5
    refine p5.trans ?_
    -- the noise
    have hlen : (∑ i ∈ Finset.range H, (M (-((i + 1 : ℕ) : ℤ))).length) + (M (2 * N : ℕ)).length
        + (∑ i ∈ Finset.range H, (M ((i + 1 : ℕ) : ℤ)).length) + (M 0).length = dim := by
      have hl : ∀ v, (M v).length = ∑ j ∈ Finset.range dim, if val j = v then 1 else 0 := by
        intro v
        rw [hMs, ← sum_map_filter dim val v (fun _ => 1)]
        simp
      simp only [hl]
      rw [Finset.sum_comm, Finset.sum_comm (s := Finset.range H) (t := Finset.range dim)
        (f := fun i j => if val j = ((i + 1 : ℕ) : ℤ) then 1 else 0), ← Finset.sum_add_distrib,
        ← Finset.sum_add_distrib, ← Finset.sum_add_distrib]
      have : ∀ j ∈ Finset.range dim, _ = 1 := fun j _ => by
        obtain ⟨t0, tp, tm, tn⟩ := pick_sum N H hN0 (val j) (fun _ => 1) (fun _ => 1) 1 1
        rcases hv2 j with ⟨i, hi, hvi, -⟩ | ⟨i, h0, hi, hvi, -⟩ | ⟨hvi, -⟩
        · rcases Nat.eq_zero_or_pos i with rfl | hi0
          · exact t0 (by simpa using hvi)
          · exact tp i hHN hi0 (by omega) hvi
        · exact tm i h0 (by omega) hvi
        · exact tn hHN hvi
      rw [show ((2 * N : ℕ) : ℤ) = 2 * (N : ℤ) by push_cast; rfl, Finset.sum_congr rfl this]
      simp
    have hq : ∀ q, q * K.window ≤ 0 + H + K.window → q ≤ H / K.window + 1 := by
      intro q h
      rw [← Nat.add_div_right _ hwin]
      exact (Nat.le_div_iff_mul_le hwin).2 (by omega)
    have hq1 := Nat.mul_le_mul_right Y (hq q1 b1)
    have hq4 := Nat.mul_le_mul_right Y (hq q4 b4)
    rw [← hlen]
    have x1 : (M (2 * N : ℕ)).length * X ≤ (M (2 * N : ℕ)).length * (X + Y) := Nat.mul_le_mul_left _ (by omega)
    have x2 : (M 0).length * X ≤ (M 0).length * (X + Y) := Nat.mul_le_mul_left _ (by omega)
    have hexpand : ∀ a b c d q : ℕ, (a + b + c + d) * (X + Y) + (2 * q + 1) * Y
        = a * (X + Y) + b * (X + Y) + c * (X + Y) + d * (X + Y) + q * Y + q * Y + Y := by
      intro a b c d q; ring
    rw [hexpand]
    push_cast at x1 x2 ⊢
    omega
  · intro v i hv hv'
    rw [f5 v i hv, f4 v i hv hv']
    show m3 v i = _
    rw [f3 v i hv hv', f2 v i hv, f1 v i hv hv']
    exact hf0 v i hv
end

end Fhew
end Tfhe
