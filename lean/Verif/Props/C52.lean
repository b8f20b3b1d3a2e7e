import Verif.Model.Cdt
import Verif.Lemma.Float
import Mathlib.Data.Finset.Card
import Mathlib.Order.Interval.Finset.Nat
import Mathlib.Tactic.Linarith

/-!
# C52: table-driven discrete Gaussian sampling inverts its table
-/
namespace Tfhe
open Cdt

/-! ### Specification -/

/-- A non-decreasing table. -/
def Sorted64 (table : List (BitVec 64)) : Prop := table.Pairwise fun a b => a.toNat ≤ b.toNat

/-- Number of table entries that do not exceed `r`. -/
def below (table : List (BitVec 64)) (r : BitVec 64) : ℕ := table.countP fun t => t.toNat ≤ r.toNat

/-! ### Binary search -/

theorem searchLoop_spec (f : ℕ → Bool) (n : ℕ) (hf : ∀ a b, a ≤ b → f a = true → f b = true) :
    ∀ (i j : ℕ), i ≤ j → j ≤ n → (∀ a, a < i → f a = false) → (∀ a, j ≤ a → a < n → f a = true) →
      searchLoop f i j ≤ n ∧ (∀ a, a < searchLoop f i j → f a = false) ∧
        ∀ a, searchLoop f i j ≤ a → a < n → f a = true := by
  intro i j
  induction i, j using searchLoop.induct f with
  | case1 i j hij hm ih =>
    intro h1 h2 h3 h4
    rw [searchLoop, if_pos hij, if_pos hm]
    exact ih (by omega) (by omega) h3 fun a ha _ => hf _ _ ha hm
  | case2 i j hij hm ih =>
    intro h1 h2 h3 h4
    rw [searchLoop, if_pos hij, if_neg hm]
    refine ih (by omega) h2 ?_ h4
    intro a ha
    by_contra hc
    rw [Bool.not_eq_false] at hc
    exact hm (hf a _ (by omega) hc)
  | case3 i j hij =>
    intro h1 h2 h3 h4
    rw [searchLoop, if_neg hij]
    exact ⟨by omega, h3, fun a ha hn => h4 a (by omega) hn⟩

/-- **Binary search.**  For a monotone predicate `sort.Search` returns the first index at which it holds, or `n`. -/
theorem C52_search (f : ℕ → Bool) (n : ℕ) (hf : ∀ a b, a ≤ b → b < n → f a = true → f b = true) :
    search n f ≤ n ∧ (∀ a, a < search n f → f a = false) ∧ (search n f < n → f (search n f) = true) := by
  have hg : ∀ a b, a ≤ b → (decide (n ≤ a) || f a) = true → (decide (n ≤ b) || f b) = true := by
    intro a b hab h
    by_cases hb : n ≤ b
    · simp [hb]
    · simp only [Bool.or_eq_true, decide_eq_true_eq] at h ⊢
      exact Or.inr (hf a b hab (by omega) (h.resolve_left (by omega)))
  have hcongr : ∀ i j, j ≤ n → searchLoop f i j = searchLoop (fun a => decide (n ≤ a) || f a) i j := by
    intro i j
    induction i, j using searchLoop.induct f with
    | case1 i j hij hm ih =>
      intro hj
      rw [searchLoop, if_pos hij, if_pos hm, ih (by omega)]
      conv_rhs => rw [searchLoop, if_pos hij, if_pos (by simp [hm])]
    | case2 i j hij hm ih =>
      intro hj
      rw [searchLoop, if_pos hij, if_neg hm, ih hj]
      conv_rhs => rw [searchLoop, if_pos hij,
        if_neg (by simp only [Bool.or_eq_true, decide_eq_true_eq, not_or]; exact ⟨by omega, hm⟩)]
    | case3 i j hij => intro _; rw [searchLoop, if_neg hij, searchLoop, if_neg hij]
  have h := searchLoop_spec _ n hg 0 n (by omega) le_rfl (by omega) (by omega)
  unfold search
  rw [hcongr 0 n le_rfl]
  obtain ⟨h1, h2, h3⟩ := h
  refine ⟨h1, ?_, ?_⟩
  · intro a ha
    have := h2 a ha
    rw [Bool.or_eq_false_iff] at this
    exact this.2
  · intro hlt
    have := h3 _ le_rfl hlt
    rw [Bool.or_eq_true, decide_eq_true_eq] at this
    exact this.resolve_left (by omega)

theorem getD_eq (l : List (BitVec 64)) (i : ℕ) (h : i < l.length) : l.getD i 0 = l[i] := by
  simp [List.getD, h]

theorem sorted_get (table : List (BitVec 64)) (h : Sorted64 table) (a b : ℕ) (hab : a ≤ b) (hb : b < table.length) :
    (table.getD a 0).toNat ≤ (table.getD b 0).toNat := by
  rcases Nat.lt_or_eq_of_le hab with hlt | rfl
  · have := (List.pairwise_iff_getElem.1 h) a b (by omega) hb hlt
    rwa [getD_eq _ _ (by omega), getD_eq _ _ hb]
  · exact le_rfl

/-- The split of a sorted table at the number of entries that do not exceed `r`. -/
theorem below_of_split (table : List (BitVec 64)) (r : BitVec 64) (s : ℕ) (hs : s ≤ table.length)
    (h1 : ∀ a, a < s → (table.getD a 0).toNat ≤ r.toNat)
    (h2 : ∀ a, s ≤ a → a < table.length → r.toNat < (table.getD a 0).toNat) : below table r = s := by
  unfold below
  rw [← List.take_append_drop s table, List.countP_append]
  have e1 : (table.take s).countP (fun t => decide (t.toNat ≤ r.toNat)) = s := by
    rw [List.countP_eq_length.2, List.length_take, Nat.min_eq_left hs]
    intro t ht
    obtain ⟨a, ha, rfl⟩ := List.mem_iff_getElem.1 ht
    rw [List.length_take] at ha
    have := h1 a (by omega)
    rw [getD_eq _ _ (by omega)] at this
    simpa using this
  have e2 : (table.drop s).countP (fun t => decide (t.toNat ≤ r.toNat)) = 0 := by
    rw [List.countP_eq_zero]
    intro t ht
    obtain ⟨a, ha, rfl⟩ := List.mem_iff_getElem.1 ht
    rw [List.length_drop] at ha
    have := h2 (s + a) (by omega) (by omega)
    rw [getD_eq _ _ (by omega)] at this
    simpa using this
  rw [e1, e2]
  rfl

/-- **Inversion of the table.** -/
theorem C52_sample (table : List (BitVec 64)) (h : Sorted64 table) (offset : ℤ) (r : BitVec 64) (w : ℕ) :
    sampleInt table offset r = below table r + offset ∧
      sample w table offset r = BitVec.ofInt w (below table r + offset) := by
  have key : sampleInt table offset r = below table r + offset := by
    unfold sampleInt
    have hf : ∀ a b, a ≤ b → b < table.length → decide (r.toNat < (table.getD a 0).toNat) = true →
        decide (r.toNat < (table.getD b 0).toNat) = true := by
      intro a b hab hb ha
      have := sorted_get table h a b hab hb
      simp only [decide_eq_true_eq] at ha ⊢
      omega
    obtain ⟨h1, h2, h3⟩ := C52_search (fun i => decide (r.toNat < (table.getD i 0).toNat)) table.length hf
    rw [below_of_split table r _ h1]
    · intro a ha
      have := h2 a ha
      simp only [decide_eq_false_iff_not] at this
      omega
    · intro a ha hl
      have h4 := h3 (by omega)
      have := hf _ a ha hl h4
      simpa using this
  exact ⟨key, by unfold sample; rw [key]⟩

/-- **Monotone**, and within the range of the table plus one. -/
theorem C52_range (table : List (BitVec 64)) (h : Sorted64 table) (offset : ℤ) (r r' : BitVec 64) (hr : r.toNat ≤ r'.toNat) :
    offset ≤ sampleInt table offset r ∧ sampleInt table offset r ≤ sampleInt table offset r' ∧
      sampleInt table offset r' ≤ offset + table.length := by
  rw [(C52_sample table h offset r 0).1, (C52_sample table h offset r' 0).1]
  have h1 : below table r ≤ below table r' := by
    unfold below
    refine List.countP_mono_left ?_
    intro t _ ht
    simp only [decide_eq_true_eq] at ht ⊢
    omega
  have h2 : below table r' ≤ table.length := List.countP_le_length
  omega

/-- The number of words for which the outcome is at most `offset + i`, for an entry `i` of the table: the entry. -/
theorem C52_cumulative (table : List (BitVec 64)) (h : Sorted64 table) (offset : ℤ) (i : ℕ) (hi : i < table.length) :
    ((Finset.range (2 ^ 64)).filter fun x => sampleInt table offset (BitVec.ofNat 64 x) ≤ offset + i).card
      = (table.getD i 0).toNat := by
  have hlt := (table.getD i 0).isLt
  have : ((Finset.range (2 ^ 64)).filter fun x => sampleInt table offset (BitVec.ofNat 64 x) ≤ offset + i)
      = Finset.range (table.getD i 0).toNat := by
    ext x
    simp only [Finset.mem_filter, Finset.mem_range]
    have hiff : ∀ x : ℕ, x < 2 ^ 64 → (sampleInt table offset (BitVec.ofNat 64 x) ≤ offset + i ↔
        x < (table.getD i 0).toNat) := by
      intro x hx
      have hxn : (BitVec.ofNat 64 x).toNat = x := by rw [BitVec.toNat_ofNat, Nat.mod_eq_of_lt hx]
      unfold sampleInt
      have hf : ∀ a b, a ≤ b → b < table.length → decide ((BitVec.ofNat 64 x).toNat < (table.getD a 0).toNat) = true →
          decide ((BitVec.ofNat 64 x).toNat < (table.getD b 0).toNat) = true := by
        intro a b hab hb ha
        have := sorted_get table h a b hab hb
        simp only [decide_eq_true_eq] at ha ⊢
        omega
      obtain ⟨h1, h2, h3⟩ := C52_search _ table.length hf
      set s := search table.length fun i => decide ((BitVec.ofNat 64 x).toNat < (table.getD i 0).toNat) with hs
      constructor
      · intro hle
        have hsi : s ≤ i := by omega
        have := hf s i hsi hi (h3 (by omega))
        simpa [hxn] using this
      · intro hlt
        by_contra hc
        have := h2 i (by omega)
        rw [hxn] at this
        simp only [decide_eq_false_iff_not] at this
        omega
    constructor
    · rintro ⟨hx, hle⟩; exact (hiff x hx).1 hle
    · intro hx; exact ⟨by omega, (hiff x (by omega)).2 hx⟩
  rw [this, Finset.card_range]

/-! ### The table -/

theorem fl_repr (q : ℚ) : ∃ m k : ℤ, |m| ≤ 2 ^ 53 ∧ fl q = m * 2 ^ k := by
  by_cases hq : q = 0
  · exact ⟨0, 0, by norm_num, by simp [hq, fl_zero]⟩
  refine ⟨roundEven (q / 2 ^ ulpExp q), ulpExp q, ?_, by rw [fl, if_neg hq]⟩
  have hb := (zpow_split q hq).2
  have hz : (0 : ℚ) < 2 ^ ulpExp q := by positivity
  have hlt : |q / 2 ^ ulpExp q| ≤ ((2 ^ 53 : ℤ) : ℚ) := by
    rw [abs_div, abs_of_pos hz, div_le_iff₀ hz]
    have : ((2 ^ 53 : ℤ) : ℚ) * 2 ^ ulpExp q = 2 ^ (Int.log 2 |q| + 1) := by
      unfold ulpExp
      rw [show Int.log 2 |q| + 1 = 53 + (Int.log 2 |q| - 52) by ring, zpow_add₀ (by norm_num) (53 : ℤ)]
      norm_num
    rw [this]
    exact hb.le
  rw [abs_le] at hlt ⊢
  constructor
  · have := roundEven_mono (x := ((-(2 ^ 53) : ℤ) : ℚ)) (by push_cast at hlt ⊢; exact hlt.1)
    rwa [roundEven_int] at this
  · have := roundEven_mono hlt.2
    rwa [roundEven_int] at this

theorem fl_fl (q : ℚ) : fl (fl q) = fl q := by
  obtain ⟨m, k, hm, h⟩ := fl_repr q
  rw [h]; exact fl_exact m k hm

theorem fl_fl_scale (q : ℚ) : fl (fl q * 2 ^ 64) = fl q * 2 ^ 64 := by
  obtain ⟨m, k, hm, h⟩ := fl_repr q
  have e : (m : ℚ) * 2 ^ k * 2 ^ 64 = m * 2 ^ (k + 64) := by
    rw [zpow_add₀ (by norm_num)]; norm_num; ring
  rw [h, e]; exact fl_exact m _ hm

/-- The value of an entry: `⌊2^64 cdf⌋`, capped. -/
theorem entry_toNat (q : ℚ) (h0 : 0 ≤ fl q) :
    ((entry (fl q)).toNat : ℤ) = if 1 ≤ fl q then 2 ^ 64 - 1 else ⌊fl q * 2 ^ 64⌋ := by
  unfold entry
  split
  · simp
  · rename_i h
    rw [not_le] at h
    rw [fl_fl_scale]
    have h1 : 0 ≤ ⌊fl q * 2 ^ 64⌋ := Int.floor_nonneg.2 (by positivity)
    have h2 : ⌊fl q * 2 ^ 64⌋ < 2 ^ 64 := by
      rw [Int.floor_lt]
      push_cast
      have : (0 : ℚ) < 2 ^ 64 := by norm_num
      nlinarith
    rw [BitVec.toNat_ofInt, Int.emod_eq_of_lt h1 (by simpa using h2)]
    omega

theorem entry_mono (q q' : ℚ) (h0 : 0 ≤ fl q) (h : fl q ≤ fl q') : (entry (fl q)).toNat ≤ (entry (fl q')).toNat := by
  have e1 := entry_toNat q h0
  have e2 := entry_toNat q' (h0.trans h)
  have hlt := (entry (fl q)).isLt
  have hf : ⌊fl q * 2 ^ 64⌋ ≤ ⌊fl q' * 2 ^ 64⌋ := Int.floor_le_floor (by
    have : (0 : ℚ) < 2 ^ 64 := by norm_num
    nlinarith)
  by_cases c' : 1 ≤ fl q'
  · rw [if_pos c'] at e2; omega
  · rw [if_neg c'] at e2
    rw [if_neg (fun c => c' (c.trans h))] at e1
    omega

theorem fillTable_sorted (ws : List ℚ) (hws : ∀ x ∈ ws, 0 ≤ x) : ∀ c : ℚ, 0 ≤ c → fl c = c →
    Sorted64 (fillTable c ws) ∧ ∀ t ∈ fillTable c ws, (entry c).toNat ≤ t.toNat := by
  induction ws with
  | nil => intro c _ _; exact ⟨List.Pairwise.nil, by simp [fillTable]⟩
  | cons x ws ih =>
    intro c h0 hc
    have hx := hws x (by simp)
    have hm : c ≤ fl (c + x) := by
      conv_lhs => rw [← hc]
      exact fl_mono h0 (by linarith)
    obtain ⟨h1, h2⟩ := ih (fun y hy => hws y (by simp [hy])) (fl (c + x)) (h0.trans hm) (fl_fl _)
    have he : (entry c).toNat ≤ (entry (fl (c + x))).toNat := by
      have := entry_mono c (c + x) (by rw [hc]; exact h0) (by rw [hc]; exact hm)
      rwa [hc] at this
    refine ⟨List.Pairwise.cons h2 h1, ?_⟩
    intro t ht
    rcases List.mem_cons.1 ht with rfl | ht
    · exact he
    · exact he.trans (h2 t ht)

/-- **The table.**  Whatever the (non-negative) weights are, the table that `NewCDTSampler` makes is non-decreasing, so the
theorems above apply to it. -/
theorem C52_table (rnd : ℚ → ℚ) (rho : ℚ → ℚ → ℚ → ℚ) (hrho : ∀ x c s, 0 ≤ rho x c s) (center stdDev : ℚ) :
    Sorted64 (new rnd rho center stdDev).table := by
  refine (fillTable_sorted _ ?_ 0 le_rfl fl_zero).1
  intro x hx
  obtain ⟨i, _, rfl⟩ := List.mem_map.1 hx
  exact hrho _ _ _

theorem fillTable_length (ws : List ℚ) : ∀ c, (fillTable c ws).length = ws.length := by
  induction ws with
  | nil => intro c; rfl
  | cons x ws ih => intro c; simp [fillTable, ih]

theorem fillTable_get (ws : List ℚ) : ∀ (c : ℚ) (i : ℕ), i < ws.length → ∃ d : ℕ → ℚ, d 0 = c ∧
    (∀ j, j ≤ i → d (j + 1) = fl (d j + ws.getD j 0)) ∧ (fillTable c ws).getD i 0 = entry (d (i + 1)) := by
  induction ws with
  | nil => intro c i hi; simp at hi
  | cons x ws ih =>
    intro c i hi
    cases i with
    | zero =>
      refine ⟨fun j => if j = 0 then c else fl (c + x), rfl, ?_, ?_⟩
      · intro j hj
        have : j = 0 := by omega
        subst this
        simp
      · simp [fillTable]
    | succ i =>
      obtain ⟨d, h0, h1, h2⟩ := ih (fl (c + x)) i (by simpa using hi)
      refine ⟨fun j => if j = 0 then c else d (j - 1), rfl, ?_, ?_⟩
      · intro j hj
        cases j with
        | zero => simp [h0]
        | succ j =>
          have := h1 j (by omega)
          simpa using this
      · simpa [fillTable] using h2

/-- Rounding errors of the sums. -/
theorem cdf_err (d : ℕ → ℚ) (x : ℕ → ℚ) (hx : ∀ j, 0 ≤ x j) (n : ℕ) (h0 : d 0 = 0)
    (h1 : ∀ j, j < n → d (j + 1) = fl (d j + x j)) (hS : ∑ j ∈ Finset.range n, x j ≤ 2) (hn : n ≤ 2 ^ 50) :
    |d n - ∑ j ∈ Finset.range n, x j| ≤ n / 2 ^ 51 := by
  induction n with
  | zero => simp [h0]
  | succ n ih =>
    rw [Finset.sum_range_succ] at hS ⊢
    have ih := ih (fun j hj => h1 j (by omega)) (by linarith [hx n]) (by omega)
    rw [h1 n (by omega)]
    have he := fl_err (d n + x n)
    set S := ∑ j ∈ Finset.range n, x j
    have hS0 : 0 ≤ S := Finset.sum_nonneg fun j _ => hx j
    have hn' : (n : ℚ) / 2 ^ 51 ≤ 1 := by
      rw [div_le_one (by norm_num)]
      have : n ≤ 2 ^ 51 := by omega
      exact_mod_cast this
    have hb : |d n + x n| ≤ 3 := by
      rw [abs_le] at ih ⊢
      constructor <;> linarith [hx n]
    have h3 : |d n + x n| / 2 ^ 53 ≤ 1 / 2 ^ 51 := by
      rw [div_le_div_iff₀ (by norm_num) (by norm_num)]
      linarith
    have e : fl (d n + x n) - (S + x n) = (fl (d n + x n) - (d n + x n)) + (d n - S) := by ring
    rw [e]
    calc _ ≤ |fl (d n + x n) - (d n + x n)| + |d n - S| := abs_add_le _ _
      _ ≤ 1 / 2 ^ 51 + n / 2 ^ 51 := add_le_add (he.trans h3) ih
      _ = ((n + 1 : ℕ) : ℚ) / 2 ^ 51 := by push_cast; ring

/-- **The distribution.**  If the weights sum to at most 2, then the share of raw words with outcome at most `offset + i` is the
sum of the first `i + 1` weights, capped at 1, up to the rounding of the table: `(i + 1) / 2^51 + 1 / 2^64`. -/
theorem C52_distribution (rnd : ℚ → ℚ) (rho : ℚ → ℚ → ℚ → ℚ) (hrho : ∀ x c s, 0 ≤ rho x c s) (center stdDev : ℚ) (i : ℕ)
    (hi : i < (new rnd rho center stdDev).table.length) (hi50 : i < 2 ^ 50)
    (S : ℚ) (hS : S = ∑ j ∈ Finset.range (i + 1),
      rho (fl ((tailLo rnd center stdDev + (j : ℤ) : ℤ) : ℚ)) (fl (center - ⌊center⌋)) stdDev) (hS2 : S ≤ 2) :
    |((((Finset.range (2 ^ 64)).filter fun x =>
        sampleInt (new rnd rho center stdDev).table (new rnd rho center stdDev).offset (BitVec.ofNat 64 x)
          ≤ (new rnd rho center stdDev).offset + i).card : ℕ) : ℚ) / 2 ^ 64 - min S 1| ≤ ((i : ℚ) + 1) / 2 ^ 51 + 1 / 2 ^ 64 := by
  rw [C52_cumulative _ (C52_table rnd rho hrho center stdDev) _ i hi]
  set ws := (List.range (tailHi rnd center stdDev - tailLo rnd center stdDev + 1).toNat).map fun i : ℕ =>
    rho (fl ((tailLo rnd center stdDev + (i : ℤ) : ℤ) : ℚ)) (fl (center - ⌊center⌋)) stdDev with hws
  have ht : (new rnd rho center stdDev).table = fillTable 0 ws := rfl
  rw [ht] at hi ⊢
  rw [fillTable_length] at hi
  obtain ⟨d, h0, h1, h2⟩ := fillTable_get ws 0 i hi
  have hget : ∀ j, j < i + 1 → ws.getD j 0 = rho (fl ((tailLo rnd center stdDev + (j : ℤ) : ℤ) : ℚ))
      (fl (center - ⌊center⌋)) stdDev := by
    intro j hj
    have hjl : j < (tailHi rnd center stdDev - tailLo rnd center stdDev + 1).toNat := by
      rw [hws, List.length_map, List.length_range] at hi; omega
    rw [hws]
    simp [List.getD, hjl]
  have hnn : ∀ j, 0 ≤ ws.getD j 0 := by
    intro j
    by_cases hj : j < ws.length
    · have : ws.getD j 0 ∈ ws := by simp [List.getD, hj]
      rw [hws] at this
      obtain ⟨t, _, e⟩ := List.mem_map.1 this
      rw [← hws] at e
      rw [← e]; exact hrho _ _ _
    · simp [List.getD, hj]
  have hsum : S = ∑ j ∈ Finset.range (i + 1), ws.getD j 0 := by
    rw [hS]; exact Finset.sum_congr rfl fun j hj => (hget j (Finset.mem_range.1 hj)).symm
  have herr := cdf_err d (fun j => ws.getD j 0) hnn (i + 1) h0 (fun j hj => h1 j (by omega)) (by rw [← hsum]; exact hS2)
    (by omega)
  rw [← hsum] at herr
  have hd : d (i + 1) = fl (d i + ws.getD i 0) := h1 i le_rfl
  have hd0 : ∀ j, j ≤ i + 1 → 0 ≤ d j := by
    intro j
    induction j with
    | zero => intro _; rw [h0]
    | succ j ih =>
      intro hj
      rw [h1 j (by omega)]
      exact fl_nonneg (add_nonneg (ih (by omega)) (hnn j))
  have hent := entry_toNat (d i + ws.getD i 0) (by rw [← hd]; exact hd0 _ le_rfl)
  rw [← hd, ← h2] at hent
  have hc : |(((fillTable 0 ws).getD i 0).toNat : ℚ) / 2 ^ 64 - min (d (i + 1)) 1| ≤ 1 / 2 ^ 64 := by
    have hcast : (((fillTable 0 ws).getD i 0).toNat : ℚ) = ((((fillTable 0 ws).getD i 0).toNat : ℤ) : ℚ) := by norm_cast
    rw [hcast, hent]
    by_cases c : 1 ≤ d (i + 1)
    · rw [if_pos c, min_eq_right c]
      norm_num
    · rw [if_neg c, min_eq_left (le_of_not_ge c)]
      have f1 := Int.floor_le (d (i + 1) * 2 ^ 64)
      have f2 := Int.lt_floor_add_one (d (i + 1) * 2 ^ 64)
      rw [abs_le]
      constructor
      · rw [le_sub_iff_add_le, le_div_iff₀ (by norm_num)]
        have e : (-(1 / 2 ^ 64) + d (i + 1)) * 2 ^ 64 = d (i + 1) * 2 ^ 64 - 1 := by ring
        rw [e]
        linarith
      · rw [sub_le_iff_le_add, div_le_iff₀ (by norm_num)]
        have e : (1 / 2 ^ 64 + d (i + 1)) * 2 ^ 64 = d (i + 1) * 2 ^ 64 + 1 := by ring
        rw [e]
        linarith
  have hmin : |min (d (i + 1)) 1 - min S 1| ≤ (i + 1) / 2 ^ 51 := by
    push_cast at herr
    refine le_trans ?_ herr
    have a1 := le_abs_self (d (i + 1) - S)
    have a2 := neg_abs_le (d (i + 1) - S)
    have a3 := abs_nonneg (d (i + 1) - S)
    rw [abs_le]
    rcases min_choice (d (i + 1)) 1 with h | h <;> rcases min_choice S 1 with h' | h' <;>
      have b1 := min_le_left (d (i + 1)) 1 <;> have b2 := min_le_right (d (i + 1)) 1 <;>
      have b3 := min_le_left S 1 <;> have b4 := min_le_right S 1 <;> rw [h] at b1 b2 ⊢ <;> rw [h'] at b3 b4 ⊢ <;>
      constructor <;> linarith
  calc _ ≤ |(((fillTable 0 ws).getD i 0).toNat : ℚ) / 2 ^ 64 - min (d (i + 1)) 1| + |min (d (i + 1)) 1 - min S 1| := by
        have := abs_sub_le ((((fillTable 0 ws).getD i 0).toNat : ℚ) / 2 ^ 64) (min (d (i + 1)) 1) (min S 1)
        exact this
    _ ≤ _ := by linarith

/-- A table with three entries: words below 10 give the offset, the next 20 words one more, and so on; the outcome 1 is past the
table. -/
example : Sorted64 [10, 30, 200] ∧ (sampleInt [10, 30, 200] (-2) 9, sampleInt [10, 30, 200] (-2) 10,
    sampleInt [10, 30, 200] (-2) 30, sampleInt [10, 30, 200] (-2) 200) = (-2, -1, 0, 1) := by
  constructor
  · simp [Sorted64]
  · simp [sampleInt, search, searchLoop]

/-- 25 equal weights around 0: the hypotheses of `C52_distribution` hold, here for the entry of `x = -9`. -/
example : ∃ i, i < (new id (fun _ _ _ => 1 / 25) 0 1).table.length ∧ i < 2 ^ 50 ∧
    ∑ _j ∈ Finset.range (i + 1), (1 / 25 : ℚ) = 4 / 25 := by
  have h1 : tailLo id 0 1 = -12 := by
    have := fl_int (-12) (by norm_num)
    unfold tailLo
    norm_num at this ⊢
    rw [this]; norm_num
  have h2 : tailHi id 0 1 = 12 := by
    have := fl_int 12 (by norm_num)
    unfold tailHi
    norm_num at this ⊢
    rw [this]; norm_num
  refine ⟨3, ?_, by norm_num, by norm_num⟩
  unfold new
  rw [h1, h2]
  simp [fillTable_length]

end Tfhe
