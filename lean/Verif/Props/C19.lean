import Verif.Props.C17

/-!
# C19: blind rotation with tables longer than the ring degree

The `f` accumulators are the slots of one polynomial of degree `f * N`.  Every block rotates it
correctly (`C19_rotate_partial`).  The initial rotation by `-b'` is wrong unless `f` divides it
(`C19_false`): source and destination slots are exchanged, which shifts the table by up to `2f - 2`
positions (`C19_near_partial`).  With a single block that block is applied twice (`C19_one_block_false`).
-/
namespace Tfhe
open Poly

section
variable {w N k f : ℕ} [NeZero N] [NeZero f]

/-- Slot `q` of a long polynomial. -/
def slot (f : ℕ) {N w : ℕ} (Q : Poly (f * N) (BitVec w)) (q : Fin f) : Poly N (BitVec w) := fun j =>
  Q ⟨j.1 * f + q.1, by
    calc j.1 * f + q.1 < j.1 * f + f := by have := q.2; omega
      _ = f * (j.1 + 1) := by ring
      _ ≤ f * N := Nat.mul_le_mul_left _ j.2⟩

omit [NeZero N] in
theorem inter_slot (Q : Poly (f * N) (BitVec w)) : inter (slot f Q) = Q := by
  funext t
  show Q _ = Q t
  congr 1
  apply Fin.ext
  show t.1 / f * f + t.1 % f = t.1
  rw [mul_comm]; exact Nat.div_add_mod _ _

/-- Phases of all slots, as one long polynomial. -/
def phases (f : ℕ) [NeZero f] (sk : Fin k → Poly N (BitVec w)) (acc : ℕ → Fin (k + 1) → Poly N (BitVec w)) :
    Poly (f * N) (BitVec w) := inter (fun q : Fin f => phase sk (acc q.1))

theorem phase_ctMul (sk : Fin k → Poly N (BitVec w)) (d : Poly N (BitVec w)) (c : Fin (k + 1) → Poly N (BitVec w)) :
    phase sk (ctMul d c) = d * phase sk c := phase_smul sk d c
theorem phase_ctSub (sk : Fin k → Poly N (BitVec w)) (c d : Fin (k + 1) → Poly N (BitVec w)) :
    phase sk (ctSub c d) = phase sk c - phase sk d := phase_sub sk c d

/-- What a key element contributes is `Y^a2N - 1` times the products. -/
theorem phases_extTerm (sk : Fin k → Poly N (BitVec w)) (a2N : ℕ) (blk : ℕ → Fin (k + 1) → Poly N (BitVec w)) :
    phases f sk (extTerm f a2N blk) = monoSubOne (f * N) w (a2N : ℤ) * phases f sk blk := by
  have hI : a2N % f < f := Nat.mod_lt _ (NeZero.pos f)
  have hsplit : (a2N : ℤ) = f * ((a2N / f : ℕ) : ℤ) + ((a2N % f : ℕ) : ℤ) := by
    exact_mod_cast (Nat.div_add_mod a2N f).symm
  unfold monoSubOne phases
  rw [sub_mul, one_mul, hsplit, mono_mul_inter _ _ _ hI, ← inter_sub]
  congr 1
  funext q
  unfold extTerm
  by_cases h0 : a2N % f = 0
  · simp only [h0, if_true]
    rw [phase_ctMul]
    simp only [Nat.not_lt_zero, dif_neg, not_false_eq_true, Nat.sub_zero]
    unfold monoSubOne
    rw [sub_mul, one_mul]
  · simp only [h0, if_false]
    by_cases hq : q.1 < a2N % f
    · rw [if_pos hq, dif_pos hq, phase_ctSub, phase_ctMul]
    · rw [if_neg hq, dif_neg hq, phase_ctSub, phase_ctMul]

omit [NeZero f] in
theorem extTermAdd_eq (a2N : ℕ) (blk fa : ℕ → Fin (k + 1) → Poly N (BitVec w)) :
    extTermAdd f a2N blk fa = fun q t => fa q t + extTerm f a2N blk q t := by
  funext q t
  unfold extTermAdd extTerm
  split_ifs
  · rfl
  · simp only [ctSub, ctMulAdd, ctMul]; ring
  · simp only [ctSub, ctMulAdd, ctMul]; ring

theorem phases_add (sk : Fin k → Poly N (BitVec w)) (a b : ℕ → Fin (k + 1) → Poly N (BitVec w)) :
    phases f sk (fun q t => a q t + b q t) = phases f sk a + phases f sk b := by
  unfold phases
  rw [← inter_add]
  congr 1
  funext q
  exact phase_add sk (a q) (b q)

theorem mono_negSwitch (L : ℕ) (hL : L = f * N) (x : BitVec w) :
    monoSubOne (f * N) w (negSwitch w L x : ℤ) = monoSubOne (f * N) w (-(modSwitch w L x : ℤ)) := by
  have hL0 : 0 < L := by rw [hL]; exact Nat.mul_pos (NeZero.pos f) (NeZero.pos N)
  have hlt : modSwitch w L x < 2 * L := Nat.mod_lt _ (by omega)
  unfold monoSubOne negSwitch
  congr 1
  apply mono_congr
  rw [Nat.cast_sub hlt.le, ← hL]
  push_cast
  rw [sub_eq_add_neg, Int.add_emod_left]

/-- One block on all slots. -/
theorem phases_extBlock (sk : Fin k → Poly N (BitVec w)) (bs j0 : ℕ) (hbs : 0 < bs)
    (prod : ℕ → ℕ → Fin (k + 1) → Poly N (BitVec w)) (ct : ℕ → BitVec w)
    (err acc : ℕ → Fin (k + 1) → Poly N (BitVec w)) :
    phases f sk (extBlock f (f * N) bs j0 prod ct err acc) = phases f sk acc
      + ∑ j ∈ Finset.range bs, monoSubOne (f * N) w (-(modSwitch w (f * N) (ct (j0 + j + 1)) : ℤ)) *
          phases f sk (prod (j0 + j))
      + phases f sk err := by
  have hfold : ∀ m (fa : ℕ → Fin (k + 1) → Poly N (BitVec w)),
      phases f sk ((List.range' (j0 + 1) m).foldl (fun fa j =>
        extTermAdd f (negSwitch w (f * N) (ct (j + 1))) (prod j) fa) fa)
      = phases f sk fa + ∑ j ∈ Finset.range m, monoSubOne (f * N) w (-(modSwitch w (f * N) (ct (j0 + (j + 1) + 1)) : ℤ)) *
          phases f sk (prod (j0 + (j + 1))) := by
    intro m
    induction m with
    | zero => intro fa; simp
    | succ m ih =>
      intro fa
      rw [List.range'_concat, List.foldl_append, List.foldl_cons, List.foldl_nil, extTermAdd_eq, phases_add, ih,
        phases_extTerm, mono_negSwitch _ rfl, Finset.sum_range_succ, add_assoc,
        show j0 + 1 + 1 * m = j0 + (m + 1) by ring]
  obtain ⟨m, rfl⟩ : ∃ m, bs = m + 1 := ⟨bs - 1, by omega⟩
  unfold extBlock
  simp only [Nat.add_sub_cancel]
  unfold invFFTAdd
  rw [phases_add, phases_add, hfold, phases_extTerm, mono_negSwitch _ rfl, Finset.sum_range_succ' _ m]
  simp only [Nat.add_zero]
  abel

/-- One block: rotation of the long phase plus bounded noise. -/
theorem extBlock_step (G : Gadget (Poly N (BitVec w))) {D E : ℕ} (hG : G.Bounded (polyNorm N w) D E)
    (sk : Fin k → Poly N (BitVec w)) (S B n Fe : ℕ) (key : ℕ → Bool)
    (brk : ℕ → Fin (k + 1) → ℕ → Fin (k + 1) → Poly N (BitVec w)) (hbrk : IsBRK G sk n B key brk)
    (hS : ∀ i x, pabs (x * sk i) ≤ S * pabs x) (acc err : ℕ → Fin (k + 1) → Poly N (BitVec w))
    (hF : ∀ q, pabs (phase sk (err q)) ≤ Fe) (ct : ℕ → BitVec w) (j0 bs : ℕ) (hbs : 0 < bs) (hn : j0 + bs ≤ n)
    (h1 : AtMostOne key j0 bs) :
    ∃ r, phases f sk (extBlock f (f * N) bs j0
          (fun j q => extProd G.level (brk j) (fun t => G.dec (acc q t))) ct err acc)
        = mono (f * N) (BitVec w) (-((∑ j ∈ Finset.range bs,
            if key (j0 + j) then modSwitch w (f * N) (ct (j0 + j + 1)) else 0 : ℕ) : ℤ)) * phases f sk acc + r
      ∧ pabs r ≤ bs * (2 * brStep N k G D E S B) + Fe := by
  have hx : ∀ j (q : Fin f), ∃ ν, j < bs → (phase sk (extProd G.level (brk (j0 + j)) (fun t => G.dec (acc q.1 t)))
        = C N (kbit w (key (j0 + j))) * phase sk (acc q.1) + ν ∧ pabs ν ≤ brStep N k G D E S B) := by
    intro j q
    by_cases hj : j < bs
    · obtain ⟨ν, h⟩ := extProd_bit G hG sk S B n key brk hbrk hS (acc q.1) (j0 + j) (by omega)
      exact ⟨ν, fun _ => h⟩
    · exact ⟨0, fun h => absurd h hj⟩
  choose ν hν using hx
  obtain ⟨r, e, hr⟩ := block_phase (N := f * N) (fun j => modSwitch w (f * N) (ct (j + 1))) key j0 bs h1
    (phases f sk acc) (fun j => inter (ν j)) (phases f sk err) (brStep N k G D E S B) Fe
    (fun j hj => pabs_inter_le _ _ fun q => (hν j q hj).2) (pabs_inter_le _ _ fun q => hF q.1)
  refine ⟨r, ?_, hr⟩
  rw [← e, phases_extBlock _ _ _ hbs]
  congr 2
  refine Finset.sum_congr rfl fun j hj => ?_
  congr 1
  rw [phases, phases, ← inter_C_mul, ← inter_add]
  congr 1
  funext q
  exact (hν j q (Finset.mem_range.1 hj)).1

/-- The sum `Σ a'_i s_i` over the first `n` key bits. -/
def maskExp (w L n : ℕ) (key : ℕ → Bool) (ct : ℕ → BitVec w) : ℕ :=
  ∑ i ∈ Finset.range n, if key i then modSwitch w L (ct (i + 1)) else 0

theorem maskExp_add (L m bs : ℕ) (key : ℕ → Bool) (ct : ℕ → BitVec w) :
    maskExp w L (m + bs) key ct = maskExp w L m key ct +
      ∑ j ∈ Finset.range bs, if key (m + j) then modSwitch w L (ct (m + j + 1)) else 0 := by
  unfold maskExp
  rw [Finset.sum_range_add]

/-- **C19 (rotation by the mask).** For at least two blocks: the phase of the result is slot 0 of the
initial accumulator (seen as one polynomial of degree `f * N`) times `Y^-(Σ a'_i s_i)`, up to bounded noise. -/
theorem C19_rotate_partial (G : Gadget (Poly N (BitVec w))) {D E : ℕ} (hG : G.Bounded (polyNorm N w) D E)
    (hG0 : ∀ j, j < G.level → G.dec 0 j = 0) (sk : Fin k → Poly N (BitVec w)) (S B Fe bs bc : ℕ)
    (hbs : 0 < bs) (hbc : 2 ≤ bc) (key : ℕ → Bool) (hkey : ∀ i, i < bc → AtMostOne key (i * bs) bs)
    (brk : ℕ → Fin (k + 1) → ℕ → Fin (k + 1) → Poly N (BitVec w)) (hbrk : IsBRK G sk (bs * bc) B key brk)
    (hS : ∀ i x, pabs (x * sk i) ≤ S * pabs x) (err : ℕ → ℕ → Fin (k + 1) → Poly N (BitVec w))
    (hF : ∀ i q, pabs (phase sk (err i q)) ≤ Fe) (old : ℕ → Poly N (BitVec w)) (ct : ℕ → BitVec w)
    (lut : ℕ → Poly N (BitVec w)) :
    pabs (phase sk (blindRotateExtended G f bs bc brk err old ct lut)
        - slot f (mono (f * N) (BitVec w) (-(maskExp w (f * N) (bs * bc) key ct : ℤ)) *
            inter (fun q : Fin f => extInit f lut (negSwitch w (f * N) (ct 0)) old q.1)) ⟨0, NeZero.pos f⟩)
      ≤ bc * (bs * (2 * brStep N k G D E S B) + Fe) := by
  set body := extInit f lut (negSwitch w (f * N) (ct 0)) old with hbody
  set T : Poly (f * N) (BitVec w) := inter (fun q : Fin f => body q.1) with hT
  set acc0 : ℕ → Fin (k + 1) → Poly N (BitVec w) := fun q => Fin.cons (body q) (fun _ => 0) with hacc0
  set step : (ℕ → Fin (k + 1) → Poly N (BitVec w)) → ℕ → (ℕ → Fin (k + 1) → Poly N (BitVec w)) := fun acc i =>
    extBlock f (f * N) bs (i * bs) (fun j q => extProd G.level (brk j) (fun t => G.dec (acc q t))) ct (err i) acc
    with hstep
  have hrw : blindRotateExtended G f bs bc brk err old ct lut
      = (List.range' 0 bc).foldl step acc0 0 := by
    unfold blindRotateExtended
    simp only [← hbody, ← hacc0]
    have h0 : (fun j q => gadgetProd G.level (brk j 0) (G.dec (acc0 q 0)))
        = fun j q => extProd G.level (brk j) (fun t => G.dec (acc0 q t)) := by
      funext j q
      exact gadgetProd_eq_extProd G hG.level_pos hG0 (brk j) (acc0 q) (fun i => rfl)
    obtain ⟨m, rfl⟩ : ∃ m, bc = m + 2 := ⟨bc - 2, by omega⟩
    rw [List.range'_concat, List.foldl_append, List.foldl_cons, List.foldl_nil, List.range'_succ,
      List.foldl_cons]
    have e1 : (m + 2) * bs - bs = (0 + 1 * (m + 1)) * bs := by
      rw [show (m + 2) * bs = (m + 1) * bs + bs by ring, Nat.add_sub_cancel]; ring
    have e2 : m + 2 - 1 = 0 + 1 * (m + 1) := by omega
    have e3 : m + 2 - 2 = m := by omega
    rw [e1, e2, e3, h0, hstep]
    simp only [Nat.zero_mul]
  have hle : ∀ i, i < bc → i * bs + bs ≤ bs * bc := by
    intro i hi
    have := Nat.mul_le_mul_right bs hi
    calc i * bs + bs = (i + 1) * bs := by ring
      _ ≤ bc * bs := this
      _ = bs * bc := by ring
  have key1 : ∀ m, m ≤ bc → pabs (phases f sk ((List.range' 0 m).foldl step acc0)
        - mono (f * N) (BitVec w) (-(maskExp w (f * N) (m * bs) key ct : ℤ)) * T)
      ≤ m * (bs * (2 * brStep N k G D E S B) + Fe) := by
    intro m
    induction m with
    | zero =>
      intro _
      have : phases f sk acc0 = T := by
        unfold phases
        rw [hT]
        congr 1
        funext q
        unfold phase
        simp [hacc0]
      simp only [List.range'_zero, List.foldl_nil, this, Nat.zero_mul]
      unfold maskExp
      simp only [Finset.range_zero, Finset.sum_empty, Nat.cast_zero, neg_zero, mono_zero, one_mul, sub_self]
      exact ((polyNorm (f * N) w).zero).le
    | succ m ih =>
      intro hm
      have ih' := ih (by omega)
      rw [List.range'_concat, List.foldl_append, List.foldl_cons, List.foldl_nil]
      set acc := (List.range' 0 m).foldl step acc0
      obtain ⟨r, e, hr⟩ := extBlock_step (f := f) G hG sk S B (bs * bc) Fe key brk hbrk hS acc (err (0 + 1 * m))
        (hF _) ct ((0 + 1 * m) * bs) bs hbs (hle _ (by omega)) (hkey _ (by omega))
      have := rotate_step (phases f sk acc) (phases f sk (step acc (0 + 1 * m))) T r _ _ _ _ ih' e hr
      have hexp : (maskExp w (f * N) ((m + 1) * bs) key ct : ℤ) = (maskExp w (f * N) (m * bs) key ct : ℤ)
          + ((∑ j ∈ Finset.range bs, if key ((0 + 1 * m) * bs + j)
              then modSwitch w (f * N) (ct ((0 + 1 * m) * bs + j + 1)) else 0 : ℕ) : ℤ) := by
        rw [show (m + 1) * bs = m * bs + bs by ring, maskExp_add, Nat.cast_add]
        rw [show 0 + 1 * m = m by omega]
      rw [hexp]
      refine this.trans (le_of_eq ?_)
      ring
  rw [hrw]
  have hfin := key1 bc le_rfl
  rw [mul_comm bc bs] at hfin
  refine le_trans ?_ hfin
  set acc := (List.range' 0 bc).foldl step acc0
  set Q := mono (f * N) (BitVec w) (-(maskExp w (f * N) (bs * bc) key ct : ℤ)) * T
  have e : phases f sk acc - Q = inter (fun q : Fin f => phase sk (acc q.1) - slot f Q q) := by
    rw [inter_sub, inter_slot]; rfl
  rw [e]
  exact pabs_slot_le (fun q : Fin f => phase sk (acc q.1) - slot f Q q) ⟨0, NeZero.pos f⟩

/-! ### The initial rotation -/

theorem foldl_upd_slots {R : Type} (n s : ℕ) (g : ℕ → ℕ) (h : ℕ → R) (acc : ℕ → R)
    (hg : ∀ i j, s ≤ i → i < s + n → s ≤ j → j < s + n → g i = g j → i = j) (q : ℕ) :
    (∀ i, s ≤ i → i < s + n → g i = q → (List.range' s n).foldl (fun acc i => upd acc (g i) (h i)) acc q = h i) ∧
    ((∀ i, s ≤ i → i < s + n → g i ≠ q) → (List.range' s n).foldl (fun acc i => upd acc (g i) (h i)) acc q = acc q) := by
  induction n with
  | zero => exact ⟨fun i h1 h2 => absurd h2 (by omega), fun _ => rfl⟩
  | succ n ih =>
    obtain ⟨ih1, ih2⟩ := ih (fun i j a b c d e => hg i j a (by omega) c (by omega) e)
    rw [List.range'_concat, List.foldl_append, List.foldl_cons, List.foldl_nil, one_mul]
    constructor
    · intro i h1 h2 hq
      unfold upd
      by_cases hl : q = g (s + n)
      · have := hg i (s + n) h1 h2 (by omega) (by omega) (by rw [hq, hl])
        rw [if_pos hl, this]
      · rw [if_neg hl]
        refine ih1 i h1 ?_ hq
        by_contra hc
        have : i = s + n := by omega
        rw [this] at hq
        exact hl hq.symm
    · intro hne
      unfold upd
      rw [if_neg (fun hc => hne (s + n) (by omega) (by omega) hc.symm)]
      exact ih2 fun i h1 h2 => hne i h1 (by omega)

/-- What the two loops compute: slot `q` comes from slot `q + Idx`, or wraps around. -/
theorem extInit_eq (lut old : ℕ → Poly N (BitVec w)) (b2N : ℕ) (q : ℕ) (hq : q < f) :
    extInit f lut b2N old q = if q < f - b2N % f then mono N (BitVec w) ((b2N / f : ℕ) : ℤ) * lut (q + b2N % f)
      else mono N (BitVec w) (((b2N / f : ℕ) : ℤ) + 1) * lut (q - (f - b2N % f)) := by
  have hI : b2N % f < f := Nat.mod_lt _ (NeZero.pos f)
  unfold extInit
  set I := b2N % f
  set acc := (List.range' 0 I).foldl (fun acc i =>
    upd acc (f - I + i) (Poly.mono N (BitVec w) (((b2N / f : ℕ) : ℤ) + 1) * lut i)) old with hacc
  have h2 := foldl_upd_slots (f - I) I (fun i => i - I) (fun i => mono N (BitVec w) ((b2N / f : ℕ) : ℤ) * lut i) acc
    (fun i j a b c d e => by omega) q
  have h1 := foldl_upd_slots I 0 (fun i => f - I + i) (fun i => mono N (BitVec w) (((b2N / f : ℕ) : ℤ) + 1) * lut i) old
    (fun i j a b c d e => by omega) q
  by_cases hc : q < f - I
  · rw [if_pos hc]
    exact h2.1 (q + I) (by omega) (by omega) (by omega)
  · rw [if_neg hc]
    refine (h2.2 fun i _ _ => by omega).trans ?_
    exact h1.1 (q - (f - I)) (by omega) (by omega) (by omega)

/-- When `f` divides the rotation the initial accumulator is the rotated table. -/
theorem extInit_aligned (lut old : ℕ → Poly N (BitVec w)) (b2N : ℕ) (h0 : b2N % f = 0) :
    inter (fun q : Fin f => extInit f lut b2N old q.1)
      = mono (f * N) (BitVec w) (b2N : ℤ) * inter (fun q : Fin f => lut q.1) := by
  have hsplit : (b2N : ℤ) = f * ((b2N / f : ℕ) : ℤ) + ((0 : ℕ) : ℤ) := by
    have := Nat.div_add_mod b2N f
    rw [h0] at this
    exact_mod_cast this.symm
  rw [hsplit, mono_mul_inter _ _ _ (NeZero.pos f)]
  congr 1
  funext q
  rw [extInit_eq lut old b2N q.1 q.2, h0, if_pos (by have := q.2; omega)]
  rfl

/-- In general every coefficient of the initial accumulator is a coefficient of the table less than
`2f` positions away from the right one. -/
theorem extInit_near (lut old : ℕ → Poly N (BitVec w)) (b2N : ℕ) (z : ℤ) :
    ∃ ε : ℤ, |ε| < 2 * f ∧ at' (inter (fun q : Fin f => extInit f lut b2N old q.1)) z
      = at' (inter (fun q : Fin f => lut q.1)) (z - b2N + ε) := by
  have hf : (0:ℤ) < f := by exact_mod_cast NeZero.pos f
  have hI : b2N % f < f := Nat.mod_lt _ (NeZero.pos f)
  have hsplit : (b2N : ℤ) = f * ((b2N / f : ℕ) : ℤ) + ((b2N % f : ℕ) : ℤ) := by
    exact_mod_cast (Nat.div_add_mod b2N f).symm
  set I := b2N % f with hIdef
  set M := b2N / f
  rw [at_inter]
  obtain ⟨u, r, hr0, hrf, rfl⟩ : ∃ u r : ℤ, 0 ≤ r ∧ r < f ∧ z = f * u + r :=
    ⟨z / f, z % f, Int.emod_nonneg _ hf.ne', Int.emod_lt_of_pos _ hf, by rw [Int.mul_ediv_add_emod]⟩
  obtain ⟨r, rfl⟩ := Int.eq_ofNat_of_zero_le hr0
  have hidx : ∀ (q : ℤ) (r : ℕ) (h : r < f), idx f (f * q + r) = ⟨r, h⟩ := by
    intro q r h
    apply Fin.ext
    show ((f * q + r : ℤ) % f).toNat = r
    rw [Int.mul_add_emod_self_left, Int.emod_eq_of_lt (by omega) (by omega)]; omega
  have hdiv : ∀ (q : ℤ) (r : ℕ) (_ : r < f), (f * q + r : ℤ) / f = q := by
    intro q r h
    rw [Int.mul_add_ediv_left _ _ hf.ne', Int.ediv_eq_zero_of_lt (by omega) (by omega), add_zero]
  have hrf' : r < f := by omega
  rw [hidx u r hrf', hdiv u r hrf']
  show ∃ ε : ℤ, |ε| < 2 * f ∧ at' (extInit f lut b2N old r) u = _
  rw [extInit_eq lut old b2N r hrf', ← hIdef]
  by_cases hc : r < f - I
  · refine ⟨2 * I, by rw [abs_of_nonneg (by omega)]; omega, ?_⟩
    rw [if_pos hc, at_mono_mul, hsplit]
    have e : (f * u + r : ℤ) - (f * (M : ℤ) + (I : ℤ)) + 2 * I = f * (u - M) + ((r + I : ℕ) : ℤ) := by
      push_cast; ring
    rw [e, at_inter, hidx _ _ (by omega), hdiv _ _ (by omega)]
  · refine ⟨2 * I - 2 * f, by rw [abs_of_nonpos (by omega)]; omega, ?_⟩
    rw [if_neg hc, at_mono_mul, hsplit]
    have e : (f * u + r : ℤ) - (f * (M : ℤ) + (I : ℤ)) + (2 * I - 2 * f)
        = f * (u - (M + 1)) + ((r - (f - I) : ℕ) : ℤ) := by
      push_cast [Nat.cast_sub (not_lt.1 hc), Nat.cast_sub hI.le]; ring
    rw [e, at_inter, hidx _ _ (by omega), hdiv _ _ (by omega)]

theorem rotExp_eq (L n : ℕ) (key : ℕ → Bool) (ct : ℕ → BitVec w) :
    rotExp w L n key ct = modSwitch w L (ct 0) + maskExp w L n key ct := rfl

/-- **C19 (aligned).** When the extension factor divides the switched body, the result is as for a ring
of degree `f * N`: slot 0 of `Y^-(b' + Σ a'_i s_i) * lut`. -/
theorem C19_aligned_partial (G : Gadget (Poly N (BitVec w))) {D E : ℕ} (hG : G.Bounded (polyNorm N w) D E)
    (hG0 : ∀ j, j < G.level → G.dec 0 j = 0) (sk : Fin k → Poly N (BitVec w)) (S B Fe bs bc : ℕ)
    (hbs : 0 < bs) (hbc : 2 ≤ bc) (key : ℕ → Bool) (hkey : ∀ i, i < bc → AtMostOne key (i * bs) bs)
    (brk : ℕ → Fin (k + 1) → ℕ → Fin (k + 1) → Poly N (BitVec w)) (hbrk : IsBRK G sk (bs * bc) B key brk)
    (hS : ∀ i x, pabs (x * sk i) ≤ S * pabs x) (err : ℕ → ℕ → Fin (k + 1) → Poly N (BitVec w))
    (hF : ∀ i q, pabs (phase sk (err i q)) ≤ Fe) (old : ℕ → Poly N (BitVec w)) (ct : ℕ → BitVec w)
    (lut : ℕ → Poly N (BitVec w)) (hb : f ∣ modSwitch w (f * N) (ct 0)) :
    pabs (phase sk (blindRotateExtended G f bs bc brk err old ct lut)
        - slot f (mono (f * N) (BitVec w) (-(rotExp w (f * N) (bs * bc) key ct : ℤ)) *
            inter (fun q : Fin f => lut q.1)) ⟨0, NeZero.pos f⟩)
      ≤ bc * (bs * (2 * brStep N k G D E S B) + Fe) := by
  have h := C19_rotate_partial (f := f) G hG hG0 sk S B Fe bs bc hbs hbc key hkey brk hbrk hS err hF old ct lut
  have hlt : modSwitch w (f * N) (ct 0) < 2 * (f * N) :=
    Nat.mod_lt _ (Nat.mul_pos (by norm_num) (Nat.mul_pos (NeZero.pos f) (NeZero.pos N)))
  have h0 : negSwitch w (f * N) (ct 0) % f = 0 := by
    unfold negSwitch
    apply Nat.mod_eq_zero_of_dvd
    exact Nat.dvd_sub (Dvd.intro (2 * N) (by ring)) hb
  rw [extInit_aligned lut old _ h0, ← mul_assoc, ← mono_add] at h
  have e : mono (f * N) (BitVec w) (-(maskExp w (f * N) (bs * bc) key ct : ℤ) + (negSwitch w (f * N) (ct 0) : ℤ))
      = mono (f * N) (BitVec w) (-(rotExp w (f * N) (bs * bc) key ct : ℤ)) := by
    apply mono_congr
    rw [rotExp_eq]
    unfold negSwitch
    rw [Nat.cast_sub hlt.le]
    push_cast
    rw [show -(maskExp w (f * N) (bs * bc) key ct : ℤ) + (2 * (f * N) - modSwitch w (f * N) (ct 0))
      = -((modSwitch w (f * N) (ct 0) : ℤ) + maskExp w (f * N) (bs * bc) key ct) + 2 * (f * N) by ring,
      Int.add_emod_right]
  rwa [e] at h

/-- **C19 (in general).** The constant coefficient of the phase is the table value less than `2f`
positions away from `b' + Σ a'_i s_i`, up to bounded noise. -/
theorem C19_near_partial (G : Gadget (Poly N (BitVec w))) {D E : ℕ} (hG : G.Bounded (polyNorm N w) D E)
    (hG0 : ∀ j, j < G.level → G.dec 0 j = 0) (sk : Fin k → Poly N (BitVec w)) (S B Fe bs bc : ℕ)
    (hbs : 0 < bs) (hbc : 2 ≤ bc) (key : ℕ → Bool) (hkey : ∀ i, i < bc → AtMostOne key (i * bs) bs)
    (brk : ℕ → Fin (k + 1) → ℕ → Fin (k + 1) → Poly N (BitVec w)) (hbrk : IsBRK G sk (bs * bc) B key brk)
    (hS : ∀ i x, pabs (x * sk i) ≤ S * pabs x) (err : ℕ → ℕ → Fin (k + 1) → Poly N (BitVec w))
    (hF : ∀ i q, pabs (phase sk (err i q)) ≤ Fe) (old : ℕ → Poly N (BitVec w)) (ct : ℕ → BitVec w)
    (lut : ℕ → Poly N (BitVec w)) :
    ∃ ε : ℤ, |ε| < 2 * f ∧
      wabs (at' (phase sk (blindRotateExtended G f bs bc brk err old ct lut)) 0
        - at' (inter (fun q : Fin f => lut q.1)) (rotExp w (f * N) (bs * bc) key ct + ε))
      ≤ bc * (bs * (2 * brStep N k G D E S B) + Fe) := by
  have h := C19_rotate_partial (f := f) G hG hG0 sk S B Fe bs bc hbs hbc key hkey brk hbrk hS err hF old ct lut
  have hlt : modSwitch w (f * N) (ct 0) < 2 * (f * N) :=
    Nat.mod_lt _ (Nat.mul_pos (by norm_num) (Nat.mul_pos (NeZero.pos f) (NeZero.pos N)))
  set A := maskExp w (f * N) (bs * bc) key ct with hA
  set Q := mono (f * N) (BitVec w) (-(A : ℤ)) *
    inter (fun q : Fin f => extInit f lut (negSwitch w (f * N) (ct 0)) old q.1) with hQ
  obtain ⟨ε, hε, he⟩ := extInit_near (f := f) lut old (negSwitch w (f * N) (ct 0)) (A : ℤ)
  refine ⟨ε, hε, ?_⟩
  have e1 : at' (slot f Q ⟨0, NeZero.pos f⟩) 0 = at' Q 0 := by
    conv_rhs => rw [← inter_slot Q, at_inter]
    have : idx f (0 : ℤ) = ⟨0, NeZero.pos f⟩ := by
      apply Fin.ext; show ((0:ℤ) % f).toNat = 0; simp
    rw [this, Int.zero_ediv]
  have e2 : at' Q 0 = at' (inter (fun q : Fin f => lut q.1)) (rotExp w (f * N) (bs * bc) key ct + ε) := by
    rw [hQ, at_mono_mul, zero_sub, neg_neg, he]
    apply at_congr
    rw [rotExp_eq, ← hA]
    unfold negSwitch
    rw [Nat.cast_sub hlt.le]
    push_cast
    rw [show (A : ℤ) - (2 * (f * N) - modSwitch w (f * N) (ct 0)) + ε
      = (modSwitch w (f * N) (ct 0) + A + ε) - 2 * (f * N) by ring, Int.sub_emod_right]
  rw [← e2, ← e1, ← at_sub]
  exact (wabs_at_le _ _).trans h
end

/-- **C19 does not hold**: two slots of degree 2, a key of two zero bits, no noise at all; the result is
not the rotated table. -/
theorem C19_false :
    ∃ (brk : ℕ → Fin 2 → ℕ → Fin 2 → Poly 2 (BitVec 32)) (sk : Fin 1 → Poly 2 (BitVec 32)) (ct : ℕ → BitVec 32)
      (lut : ℕ → Poly 2 (BitVec 32)),
      IsBRK (polyGadget 2 exGadget) sk 2 0 (fun _ => false) brk ∧
      at' (phase sk (blindRotateExtended (polyGadget 2 exGadget) 2 1 2 brk (fun _ _ => 0) (fun _ => 0) ct lut)) 0 = 4 ∧
      at' (inter (fun q : Fin 2 => lut q.1)) (rotExp 32 4 2 (fun _ => false) ct) = 2 := by
  refine ⟨fun _ _ _ => 0, fun _ => 0, fun i => if i = 0 then 0x20000000 else 0,
    fun q i => BitVec.ofNat 32 (2 * i + q + 1), ?_, by decide +kernel, by decide +kernel⟩
  intro j _
  refine ⟨fun _ _ => 0, ⟨?_, ?_⟩, ?_⟩
  · intro l _
    show phase _ (0 : Fin 2 → Poly 2 (BitVec 32)) = C 2 (0 : BitVec 32) * _ + 0
    rw [phase_zero, C_zero, zero_mul, add_zero]
  · intro i l _
    show phase _ (0 : Fin 2 → Poly 2 (BitVec 32)) = C 2 (0 : BitVec 32) * 0 * _ + 0
    rw [phase_zero, mul_zero, zero_mul, add_zero]
  · intro i l _
    exact ((polyNorm 2 32).zero).le
/-- A noise-free key: masks, noises and errors of key generation all zero. -/
def zeroNoiseKey (sk : Fin 1 → Poly 2 (BitVec 32)) (key : ℕ → Bool) : ℕ → Fin 2 → ℕ → Fin 2 → Poly 2 (BitVec 32) :=
  fun j => genBlindRotateKeyElem exGadget sk (fun _ _ => 0) (fun _ _ => 0) (fun _ => 0) (kbit 32 (key j))

/-- **C19 with a single block does not hold**: the block is processed first and then again as the last
block, so the table is rotated twice by the mask.  The rotation by the body is zero here. -/
theorem C19_one_block_false :
    ∃ (sk : Fin 1 → Poly 2 (BitVec 32)) (ct : ℕ → BitVec 32) (lut : ℕ → Poly 2 (BitVec 32)),
      IsBRK (polyGadget 2 exGadget) sk 1 0 (fun _ => true) (zeroNoiseKey sk fun _ => true) ∧
      modSwitch 32 4 (ct 0) = 0 ∧
      at' (phase sk (blindRotateExtended (polyGadget 2 exGadget) 2 1 1 (zeroNoiseKey sk fun _ => true)
        (fun _ _ => 0) (fun _ => 0) ct lut)) 0 = 0x30000000 ∧
      at' (inter (fun q : Fin 2 => lut q.1)) (rotExp 32 4 1 (fun _ => true) ct) = 0x20000000 := by
  refine ⟨fun _ => 0, fun i => if i = 1 then 0x20000000 else 0,
    fun q i => BitVec.ofNat 32 (0x10000000 * (2 * i + q + 1)), ?_, by decide +kernel, by decide +kernel,
    by decide +kernel⟩
  refine isBRK_gen exGadget _ 1 0 _ _ _ _ fun j i l => ?_
  simp only [Pi.zero_apply, Finset.sum_const_zero, sub_zero]
  exact ((polyNorm 2 32).zero).le

/-- The hypotheses of `C19_aligned_partial` are met with a non-trivial table, key and mask: degree 2, two
slots, two blocks of one bit, key bits `1, 1`, switched body 2. -/
example :
    (let sk : Fin 1 → Poly 2 (BitVec 32) := fun _ i => BitVec.ofNat 32 (i % 2)
     let key : ℕ → Bool := fun _ => true
     let ct : ℕ → BitVec 32 := fun i => if i = 0 then 0x40000000 else BitVec.ofNat 32 (0x20000000 * i)
     let lut : ℕ → Poly 2 (BitVec 32) := fun q i => BitVec.ofNat 32 (0x10000000 * (2 * i + q + 1))
     let out := blindRotateExtended (polyGadget 2 exGadget) 2 1 2 (zeroNoiseKey sk key) (fun _ _ => 0)
       (fun _ => 0) ct lut
     2 ∣ modSwitch 32 (2 * 2) (ct 0) ∧ rotExp 32 (2 * 2) 2 key ct = 5 ∧
     phase sk out = slot 2 (mono (2 * 2) (BitVec 32) (-5) * inter (fun q : Fin 2 => lut q.1)) 0) := by
  decide +kernel
end Tfhe
