import Verif.Lemma.AsmVec
import Verif.Model.AsmDecompose
import Verif.Model.Gadget

/-!
# What the programs of `tfhe/asm_decompose_amd64.s` do to memory
-/
set_option linter.unusedSimpArgs false

namespace Tfhe
namespace Asm

/-- `M` is `m` with the first `cnt j` words of `D j` written at `base j`, for every `j < L`. -/
def Wrote (m : Memory) (base : Nat → BitVec 64) (D : Nat → Nat → BitVec 32) (L : Nat) (cnt : Nat → Nat)
    (M : Memory) : Prop :=
  (∀ j < L, ∀ i < cnt j, M (base j + BitVec.ofNat 64 (4 * i)) = some (D j i)) ∧
    ∀ a, (∀ j < L, ∀ i < cnt j, a ≠ base j + BitVec.ofNat 64 (4 * i)) → M a = m a

theorem storeN_any {m : Memory} {a : BitVec 64} (c : Nat) (v : Fin c → BitVec 32) (hb : a.toNat % 4 = 0)
    (hw : 4 * c ≤ 2 ^ 64) (hm : ∀ i < c, (m (a + BitVec.ofNat 64 (4 * i))).isSome) :
    storeN c m a v = some (over m a (fun i => if h : i < c then v ⟨i, h⟩ else 0) c) := by
  have := storeN_over (m := m) (b := a) (a := a) (R := fun i => if h : i < c then v ⟨i, h⟩ else 0) (k := 0)
    (K := c) c (v := v) hb (by omega) hw hm (by simp) (fun l => by simp)
  rwa [over_zero, Nat.zero_add] at this

/-- The memory of a call: outputs `base j` of `K` words, mapped, aligned, apart from each other and from the
slice headers at `hdr`; no word of the input at `p` is overwritten by writes at smaller indices. -/
structure Apart (m : Memory) (base : Nat → BitVec 64) (L K : Nat) (p hdr : BitVec 64) : Prop where
  align : ∀ j < L, (base j).toNat % 4 = 0
  mapped : ∀ j < L, ∀ i < K, (m (base j + BitVec.ofNat 64 (4 * i))).isSome
  size : 4 * K ≤ 2 ^ 62
  outs : ∀ j < L, ∀ j' < L, j ≠ j' → ∀ i < K, ∀ i' < K,
    base j + BitVec.ofNat 64 (4 * i) ≠ base j' + BitVec.ofNat 64 (4 * i')
  inp : ∀ j < L, ∀ i i', i < i' → i' < K → p + BitVec.ofNat 64 (4 * i') ≠ base j + BitVec.ofNat 64 (4 * i)
  hdrs : ∀ j < L, ∀ i < K, ∀ i' < 6 * L, hdr + BitVec.ofNat 64 (4 * i') ≠ base j + BitVec.ofNat 64 (4 * i)

theorem Wrote.store {m M : Memory} {base : Nat → BitVec 64} {D : Nat → Nat → BitVec 32} {L K : Nat}
    {cnt cnt' : Nat → Nat} {p hdr : BitVec 64} (h : Wrote m base D L cnt M) (ap : Apart m base L K p hdr)
    {j : Nat} (hj : j < L) {a : BitVec 64} (hcnt : ∀ j < L, cnt j ≤ K) (hK : cnt j + 8 ≤ K) {v : Y}
    (ha : a = base j + BitVec.ofNat 64 (4 * cnt j)) (hv : ∀ l, v l = D j (cnt j + l.val))
    (h1 : cnt' j = cnt j + 8) (h2 : ∀ i < L, i ≠ j → cnt' i = cnt i) :
    ∃ M', storeN 8 M a v = some M' ∧ Wrote m base D L cnt' M' := by
  subst ha
  have hsz := ap.size
  have hmap : ∀ i < 8, (M (base j + BitVec.ofNat 64 (4 * cnt j) + BitVec.ofNat 64 (4 * i))).isSome := by
    intro i hi
    rw [BitVec.add_assoc, ← BitVec.ofNat_add, ← Nat.mul_add, h.2]
    · exact ap.mapped j hj _ (by omega)
    · intro j' hj' i' hi' e
      by_cases hjj : j = j'
      · subst hjj
        have e1 := addr_off (base j) (i := i') (by have := hcnt j hj; omega)
        rw [← e, addr_off (base j) (by omega)] at e1
        omega
      · exact ap.outs j hj j' hj' hjj _ (by omega) _ (by have := hcnt j' hj'; omega) e
  refine ⟨_, storeN_any 8 v (align_add (ap.align j hj) _) (by norm_num) hmap, ?_, ?_⟩
  · intro j' hj' i hi
    by_cases hjj : j' = j
    · subst hjj
      by_cases hlt : i < cnt j'
      · rw [over_off, h.1 j' hj' i hlt]
        intro i' hi' e
        rw [BitVec.add_assoc, ← BitVec.ofNat_add, ← Nat.mul_add] at e
        have e1 := addr_off (base j') (i := i) (by omega)
        rw [e, addr_off (base j') (by omega)] at e1
        omega
      · obtain ⟨l, rfl⟩ := Nat.exists_eq_add_of_le (Nat.le_of_not_lt hlt)
        have hl : l < 8 := by omega
        rw [Nat.mul_add, BitVec.ofNat_add, ← BitVec.add_assoc, over_at hl (by norm_num), dif_pos hl, hv]
    · rw [over_off, h.1 j' hj' i (by rw [← h2 j' hj' hjj]; exact hi)]
      intro i' hi' e
      rw [BitVec.add_assoc, ← BitVec.ofNat_add, ← Nat.mul_add] at e
      have := hcnt j' hj'
      rw [h2 j' hj' hjj] at hi
      exact ap.outs j' hj' j hj hjj _ (by omega) _ (by omega) e
  · intro a hna
    rw [over_off, h.2]
    · intro j' hj' i hi
      refine hna j' hj' i ?_
      by_cases hjj : j' = j
      · subst hjj; omega
      · rw [h2 j' hj' hjj]; exact hi
    · intro i hi e
      refine hna j hj (cnt j + i) (by omega) ?_
      rw [e, BitVec.add_assoc, ← BitVec.ofNat_add, ← Nat.mul_add]

theorem Wrote.load {m M : Memory} {base : Nat → BitVec 64} {D : Nat → Nat → BitVec 32} {L n : Nat}
    {cnt : Nat → Nat} {b a : BitVec 64} (h : Wrote m base D L cnt M) {A : Nat → BitVec 32} (hA : Holds m b A n)
    {k : Nat} (c : Nat) (hk : k + c ≤ n)
    (hd : ∀ j < L, ∀ i < cnt j, ∀ l < c, b + BitVec.ofNat 64 (4 * (k + l)) ≠ base j + BitVec.ofNat 64 (4 * i))
    (ha : a = b + BitVec.ofNat 64 (4 * k)) : loadN c M a = some fun l => A (k + l.val) := by
  subst ha
  refine loadN_eq (align_add hA.1 _) fun l => ?_
  rw [BitVec.add_assoc, ← BitVec.ofNat_add, ← Nat.mul_add, h.2, hA.2 _ (by omega)]
  exact fun j hj i hi => hd j hj i hi l.val l.2

/-- The words of the slice headers: base, length and capacity of each. -/
def hdrWords (base len cap : Nat → BitVec 64) (i : Nat) : BitVec 32 :=
  dw (fun q => if q % 3 = 0 then base (q / 3) else if q % 3 = 1 then len (q / 3) else cap (q / 3)) i

theorem hdr_base (base len cap : Nat → BitVec 64) (d : Nat) :
    (fun l : Fin 2 => hdrWords base len cap (6 * d + l.val)) = split2 (base d) := by
  have := dw_eq_split (fun q => if q % 3 = 0 then base (q / 3) else if q % 3 = 1 then len (q / 3)
    else cap (q / 3)) (3 * d)
  have h1 : (3 * d) % 3 = 0 := by omega
  have h2 : 3 * d / 3 = d := by omega
  simp only [h1, h2, if_true] at this
  rw [← this]
  funext l
  unfold hdrWords
  congr 1
  omega

/-- The value of `c` after `t` passes of the digit loop. -/
def carry {w : Nat} (g : GadgetParams w) (x : BitVec w) : Nat → BitVec w
  | 0 => divRoundBits x g.logLastBaseQ
  | t + 1 => dcmpNext g (carry g x t)

theorem sub_one_ofNat {d : Nat} (h : 1 ≤ d) : BitVec.ofNat 64 d - 1 = BitVec.ofNat 64 (d - 1) := by
  obtain ⟨e, rfl⟩ := Nat.exists_eq_add_of_le h
  rw [Nat.add_sub_cancel_left, BitVec.ofNat_add, BitVec.add_comm]
  exact BitVec.add_sub_cancel _ _

theorem three_ofNat (d : Nat) :
    BitVec.ofNat 64 d + BitVec.ofNat 64 d + BitVec.ofNat 64 d = BitVec.ofNat 64 (3 * d) := by
  rw [← BitVec.ofNat_add, ← BitVec.ofNat_add]; congr 1; omega

theorem sub_three_ofNat {d : Nat} (h : 1 ≤ d) :
    BitVec.ofNat 64 (3 * d) - 3 = BitVec.ofNat 64 (3 * (d - 1)) := by
  obtain ⟨e, rfl⟩ := Nat.exists_eq_add_of_le h
  rw [Nat.add_sub_cancel_left, Nat.mul_add, BitVec.ofNat_add, BitVec.add_comm]
  exact BitVec.add_sub_cancel _ _

theorem addr24 (b : BitVec 64) (d : Nat) :
    b + BitVec.ofNat 64 (3 * d) * 8 + 0 = b + BitVec.ofNat 64 (4 * (6 * d)) := by
  rw [show 4 * (6 * d) = 3 * d * 8 by omega, BitVec.ofNat_mul (3 * d)]; exact BitVec.add_zero _

theorem dcmpLoop_getD {w : Nat} (gp : GadgetParams w) (x : BitVec w) (n t : Nat) (acc : List (BitVec w)) (j : Nat) :
    (dcmpLoop gp n (carry gp x t) acc).getD j 0 =
      if j ≤ n then dcmpDigit gp (carry gp x (t + (n - j))) else acc.getD (j - n - 1) 0 := by
  induction n generalizing t acc with
  | zero =>
    cases j with
    | zero => simp [dcmpLoop]
    | succ j => simp [dcmpLoop]
  | succ n ih =>
    rw [dcmpLoop, show dcmpNext gp (carry gp x t) = carry gp x (t + 1) from rfl, ih]
    rcases Nat.lt_trichotomy j (n + 1) with h | h | h
    · rw [if_pos (by omega), if_pos (by omega), show t + 1 + (n - j) = t + (n + 1 - j) by omega]
    · subst h
      rw [if_neg (by omega), if_pos le_rfl]; simp
    · rw [if_neg (by omega), if_neg (by omega), show j - n - 1 = (j - (n + 1) - 1) + 1 by omega]; simp

theorem decomposeScalar_getD {w : Nat} (gp : GadgetParams w) (x : BitVec w) {j : Nat} (hj : j < gp.level) :
    (decomposeScalar gp x).getD j 0 = dcmpDigit gp (carry gp x (gp.level - 1 - j)) := by
  have := dcmpLoop_getD gp x (gp.level - 1) 0 [] j
  rw [if_pos (by omega), Nat.zero_add] at this
  exact this

theorem srl1_ofQ (f : Fin 4 → BitVec 64) (n : Nat) :
    (ofQ fun k => qw (ofQ f) k >>> n) = ofQ fun k => f k >>> n := by simp
theorem sll1_ofQ (f : Fin 4 → BitVec 64) (n : Nat) :
    (ofQ fun k => qw (ofQ f) k <<< n) = ofQ fun k => f k <<< n := by simp

/-- Registers that hold the constants of the loops of `decomposePolyToUint32AVX2`. -/
def Consts32 (gp : GadgetParams 32) (hdr p : BitVec 64) (N L : Nat) (s : St) : Prop :=
  s.ret = false ∧ s.gpr .AX = hdr ∧ s.gpr .CX = p ∧ s.gpr .DX = BitVec.ofNat 64 N ∧
    s.gpr .BX = BitVec.ofNat 64 L ∧ s.ymm 0 = (fun _ => gp.base >>> 1) ∧
    s.ymm 1 = (fun _ => BitVec.ofNat 32 gp.logBase) ∧
    s.ymm 2 = (fun _ => BitVec.ofNat 32 gp.logLastBaseQ) ∧
    s.ymm 3 = (fun _ => 1#32) ∧ s.ymm 4 = (fun _ => gp.base - 1#32) ∧
    s.ymm 5 = (fun _ => BitVec.ofNat 32 gp.logBase - 1#32)

theorem decomposePolyToUint32AVX2_spec {F : Fpu} {gp : GadgetParams 32} {hdr p : BitVec 64} {N L c1 c2 : Nat}
    (hlb : 1 ≤ gp.logBase) (hlb' : gp.logBase < 2 ^ 32) (hL : 1 ≤ L) (hL' : L < 2 ^ 56) (hN : 8 ∣ N)
    (g : Reg → BitVec 64) (y : Nat → Y) (m : Memory) {A : Nat → BitVec 32} {base len cap : Nat → BitVec 64}
    (hA : Holds m p A N) (hH : Holds m hdr (hdrWords base len cap) (6 * L))
    (ap : Apart m base L N p hdr) :
    ∃ m', Returns F decomposePolyToUint32AVX2 (sliceArg hdr L c1 ++ sliceArg p N c2 ++
        [gp.base, BitVec.ofNat 32 gp.logBase, BitVec.ofNat 32 gp.logLastBaseQ]) (entry g y m) m' ∧
      Wrote m base (fun j => fun i => dcmpDigit gp (carry gp (A i) (L - 1 - j))) L
        (fun _ => N) m' := by
  have e1 : target decomposePolyToUint32AVX2 .N_loop_end = 48 := by decide
  have e2 : target decomposePolyToUint32AVX2 .N_loop_body = 13 := by decide
  have e3 : target decomposePolyToUint32AVX2 .level_loop_end = 38 := by decide
  have e4 : target decomposePolyToUint32AVX2 .level_loop_body = 26 := by decide
  have hsz := ap.size
  have hll : gp.logLastBaseQ ≤ 32 := Nat.sub_le _ _
  have t1 : (BitVec.ofNat 32 gp.logBase).toNat = gp.logBase := by
    rw [BitVec.toNat_ofNat, Nat.mod_eq_of_lt (by omega)]
  have t2 : (BitVec.ofNat 32 gp.logLastBaseQ).toNat = gp.logLastBaseQ := by
    rw [BitVec.toNat_ofNat, Nat.mod_eq_of_lt (by omega)]
  have t3 : (BitVec.ofNat 32 gp.logBase - 1#32).toNat = gp.logBase - 1 := by
    rw [BitVec.toNat_sub_of_le (by rw [BitVec.le_def, t1]; simpa using hlb), t1]
    simp
  obtain ⟨D, hD⟩ : ∃ D : Nat → Nat → BitVec 32, ∀ j i, D j i = dcmpDigit gp (carry gp (A i) (L - 1 - j)) :=
    ⟨_, fun _ _ => rfl⟩
  have hfun : (fun j => fun i => dcmpDigit gp (carry gp (A i) (L - 1 - j))) =
      fun j => D j := by funext j; funext i; exact (hD j i).symm
  rw [hfun]
  set fp := sliceArg hdr L c1 ++ sliceArg p N c2 ++
        [gp.base, BitVec.ofNat 32 gp.logBase, BitVec.ofNat 32 gp.logLastBaseQ] with hfp
  let I : Nat → St → Prop := fun i s => s.pc = 48 ∧ s.gpr .SI = BitVec.ofNat 64 i ∧ Consts32 gp hdr p N L s ∧
    Wrote m base (fun j => D j) L (fun _ => i) s.mem
  suffices h : Wp F decomposePolyToUint32AVX2 fp (entry g y m) (I N) by
    obtain ⟨n, ⟨pc, g, y, c, m', r⟩, e, h0, h1, ⟨h2, h3, h4, h5, -⟩, hw⟩ := h
    dsimp only at h0 h1 h2 h3 h4 h5 hw
    subst h0 h2
    have hl : (BitVec.ofNat 64 N).slt (BitVec.ofNat 64 N) = false := by
      rw [slt_ofNat (by omega) (by omega)]; simp
    refine ⟨m', ?_, hw⟩
    refine Wp.trans (Q := fun t => t = ⟨48, g, y, c, m', false⟩) ⟨n, _, e, rfl⟩ ?_
    rintro t rfl
    iterate 3 asm1 [h1, h5, hl, Bool.false_eq_true]
    refine Wp.step rfl ?_
    simp only [exec, wpO_some]
    exact .refl ⟨rfl, rfl⟩
  have start : Wp F decomposePolyToUint32AVX2 fp (entry g y m) (I 0) := by
    have a0 : arg64 fp 0 = some hdr := by simp [hfp, arg64, arg32, sliceArg, word64, join_split]
    have a1 : arg64 fp 24 = some p := by simp [hfp, arg64, arg32, sliceArg, word64, join_split]
    have a2 : arg64 fp 32 = some (BitVec.ofNat 64 N) := by
      simp [hfp, arg64, arg32, sliceArg, word64, join_ofNat]
    have a3 : arg64 fp 8 = some (BitVec.ofNat 64 L) := by
      simp [hfp, arg64, arg32, sliceArg, word64, join_ofNat]
    have a4 : arg32 fp 48 = some gp.base := by simp [hfp, arg64, arg32, sliceArg, word64, join_split]
    have a5 : arg32 fp 52 = some (BitVec.ofNat 32 gp.logBase) := by
      simp [hfp, arg64, arg32, sliceArg, word64, join_ofNat]
    have a6 : arg32 fp 56 = some (BitVec.ofNat 32 gp.logLastBaseQ) := by
      simp [hfp, arg64, arg32, sliceArg, word64, join_ofNat]
    unfold entry
    clear_value fp
    iterate 13 asm1 [a0, a1, a2, a3, a4, a5, a6, e1, VOp.eval, VImm.eval, mapQ_ofQ, srl1_ofQ]
    refine .refl ⟨rfl, by simp, ?_, ?_⟩
    · simp [Consts32]
    · exact ⟨fun j _ i hi => absurd hi (Nat.not_lt_zero _), fun _ _ => rfl⟩
  clear_value fp
  refine start.trans ?_
  obtain ⟨K, rfl⟩ := hN
  have body : ∀ k s, k < K → I (k * 8) s → Wp F decomposePolyToUint32AVX2 fp s (I (k * 8 + 8)) := by
    rintro k ⟨pc, g, y, c, M, r⟩ hk ⟨h0, h1, hc, hw⟩
    obtain ⟨h2, h3, h4, h5, h6, h7, h8, h9, h10, h11, h12⟩ := hc
    dsimp only at h0 h1 h2 h3 h4 h5 h6 h7 h8 h9 h10 h11 h12 hw
    subst h0 h2
    have hkK : k * 8 + 8 ≤ 8 * K := by nlinarith
    have hl : (BitVec.ofNat 64 (k * 8)).slt (BitVec.ofNat 64 (8 * K)) = true := by
      rw [slt_ofNat (by omega) (by omega), decide_eq_true_eq]; omega
    have l0 := hw.load hA (k := k * 8) 8 (by omega)
      (fun j hj i hi l hl => ap.inp j hj i _ (by omega) (by omega))
      (addr4 p (k * 8))
    
    -- the state before the digit loop, and before each of its passes
    let J : Nat → St → Prop := fun t s => s.pc = 38 ∧ s.gpr .SI = BitVec.ofNat 64 (k * 8) ∧
      Consts32 gp hdr p (8 * K) L s ∧ s.gpr .DI = BitVec.ofNat 64 (L - 1 - t) ∧
      s.gpr .R8 = BitVec.ofNat 64 (3 * (L - 1 - t)) ∧
      s.ymm 6 = (fun l => carry gp (A (k * 8 + l.val)) t) ∧
      Wrote m base (fun j => D j) L
        (fun j => if L - 1 - t < j then k * 8 + 8 else k * 8) s.mem
    have pre : Wp F decomposePolyToUint32AVX2 fp ⟨48, g, y, c, M, false⟩ (J 0) := by
      iterate 16 asm1 [e2, e3, h1, h3, h4, h5, h6, h7, h8, h9, h10, h11, h12, hl, l0, VOp.eval, VImm.eval,
        sub_one_ofNat hL, three_ofNat, mapQ_ofQ, sll1_ofQ, and_ofQ]
      refine .refl ⟨rfl, by simpa using h1, ?_, by simp, by simp, ?_, ?_⟩
      · simp [Consts32, h3, h4, h5, h6, h7, h8, h9, h10, h11, h12]
      · simp [carry, divRoundBits, t2]
      · refine ⟨fun j hj i hi => hw.1 j hj i ?_, fun a ha => hw.2 a fun j hj i hi => ha j hj i ?_⟩
        · try dsimp only at hi
          try dsimp only
          rwa [if_neg (by omega)] at hi
        · try dsimp only
          rw [if_neg (by omega)]; exact hi
    refine pre.trans fun s hs => ?_
    have pass : ∀ t s, 0 ≤ t → t < L - 1 → J t s → Wp F decomposePolyToUint32AVX2 fp s (J (t + 1)) := by
      rintro t ⟨pc, g, y, c, M, r⟩ - ht ⟨h0, h1, hc, hd, hr, h6', hw⟩
      obtain ⟨h2, h3, h4, h5, h6, h7, h8, h9, h10, h11, h12⟩ := hc
      dsimp only at h0 h1 h2 h3 h4 h5 h6 h7 h8 h9 h10 h11 h12 hd hr h6' hw
      subst h0 h2
      generalize hdd : L - 1 - t = d at hd hr hw
      have hd1 : 1 ≤ d := by omega
      have hl : (1 : BitVec 64).sle (BitVec.ofNat 64 d) = true := by
        rw [show (1 : BitVec 64) = BitVec.ofNat 64 1 from rfl, sle_ofNat (by norm_num) (by omega),
          decide_eq_true_eq]; exact hd1
      have hcnt : ∀ j < L, (fun j => if d < j then k * 8 + 8 else k * 8) j ≤ 8 * K := by
        intro j _; dsimp only; split <;> omega
      have l1 := hw.load hH (k := 6 * d) 2 (by omega)
        (fun j hj i hi l hl => ap.hdrs j hj i (lt_of_lt_of_le hi (hcnt j hj)) _ (by omega))
        (addr24 hdr d)
      rw [hdr_base] at l1
      obtain ⟨M', l2, hw'⟩ := hw.store (a := base d + BitVec.ofNat 64 (k * 8) * 4 + 0)
        (cnt' := fun j => if L - 1 - (t + 1) < j then k * 8 + 8 else k * 8) (j := d)
        (v := fun l => dcmpDigit gp (carry gp (A (k * 8 + l.val)) t)) ap (by omega) hcnt
        (by simp only [lt_irrefl, if_false]; omega) (by simp only [lt_irrefl, if_false]; exact addr4 (base d) (k * 8))
        (by intro l; simp only [lt_irrefl, if_false]; rw [hD, show L - 1 - d = t by omega])
        (by simp only [lt_irrefl, if_false]; rw [if_pos (by omega)])
        (by
          intro i hi hid
          try dsimp only
          by_cases hlt : d < i
          · rw [if_pos hlt, if_pos (by omega)]
          · rw [if_neg hlt, if_neg (by omega)])
      simp only [dcmpDigit] at l2
      iterate 15 asm1 [e4, h1, h3, h4, h5, h6, h7, h8, h9, h10, h11, h12, hd, hr, h6', hl, l1, l2, join2_split2,
        VOp.eval, VImm.eval, sub_one_ofNat hd1, sub_three_ofNat hd1, mapQ_ofQ, sll1_ofQ, and_ofQ]
      refine .refl ⟨rfl, by simpa using h1, ?_, ?_, ?_, ?_, hw'⟩
      · simp [Consts32, h3, h4, h5, h6, h7, h8, h9, h10, h11, h12]
      · simp only [Function.update_apply, reduceCtorEq, if_true, if_false]; congr 1; omega
      · simp only [Function.update_apply, reduceCtorEq, if_true, if_false]; congr 1; omega
      · simp [carry, dcmpNext, t1, t3, h6', h8, h12]
    refine (Wp.loop1 pass (Nat.zero_le _) s hs).trans ?_
    rintro ⟨pc, g, y, c, M, r⟩ ⟨h0, h1, hc, hd, hr, h6', hw⟩
    obtain ⟨h2, h3, h4, h5, h6, h7, h8, h9, h10, h11, h12⟩ := hc
    dsimp only at h0 h1 h2 h3 h4 h5 h6 h7 h8 h9 h10 h11 h12 hd hr h6' hw
    subst h0 h2
    rw [Nat.sub_self] at hd hr hw
    have hl : (1 : BitVec 64).sle (BitVec.ofNat 64 0) = false := by decide
    have hcnt : ∀ j < L, (fun j => if 0 < j then k * 8 + 8 else k * 8) j ≤ 8 * K := by
      intro j _; dsimp only; split <;> omega
    have l1 := hw.load hH (k := 6 * 0) (a := hdr + 0) 2 (by omega)
      (fun j hj i hi l hl => ap.hdrs j hj i (lt_of_lt_of_le hi (hcnt j hj)) _ (by omega))
      (by simp)
    rw [hdr_base] at l1
    obtain ⟨M', l2, hw'⟩ := hw.store (a := base 0 + BitVec.ofNat 64 (k * 8) * 4 + 0)
      (cnt' := fun j => k * 8 + 8) (j := 0)
      (v := fun l => dcmpDigit gp (carry gp (A (k * 8 + l.val)) (L - 1))) ap (by omega) hcnt
      (by simp only [lt_irrefl, if_false]; omega) (by simp only [lt_irrefl, if_false]; exact addr4 (base 0) (k * 8))
      (by intro l; simp only [lt_irrefl, if_false]; rw [hD, Nat.sub_zero])
      (by simp only [lt_irrefl, if_false])
      (by
        intro i hi hid
        try dsimp only
        rw [if_pos (by omega)]; try omega)
    simp only [dcmpDigit] at l2
    iterate 10 asm1 [h1, h3, h4, h5, h6, h7, h8, h9, h10, h11, h12, hd, hr, h6', hl, l1, l2, join2_split2,
      Bool.false_eq_true, VOp.eval, VImm.eval, mapQ_ofQ, sll1_ofQ, and_ofQ]
    refine .refl ⟨rfl, ?_, ?_, hw'⟩
    · simp [BitVec.ofNat_add]
    · simp [Consts32, h3, h4, h5, h6, h7, h8, h9, h10, h11, h12]
  intro s hs
  have := Wp.loop body K (le_refl _) s hs
  rwa [Nat.mul_comm] at this

/-- Registers that hold the constants of the loops of `decomposePolyToUint64AVX2`. -/
def Consts64 (gp : GadgetParams 64) (hdr p : BitVec 64) (N L : Nat) (s : St) : Prop :=
  s.ret = false ∧ s.gpr .AX = hdr ∧ s.gpr .CX = p ∧ s.gpr .DX = BitVec.ofNat 64 N ∧
    s.gpr .BX = BitVec.ofNat 64 L ∧ s.ymm 0 = (ofQ fun _ => gp.base >>> 1) ∧
    s.ymm 1 = (ofQ fun _ => BitVec.ofNat 64 gp.logBase) ∧
    s.ymm 2 = (ofQ fun _ => BitVec.ofNat 64 gp.logLastBaseQ) ∧
    s.ymm 3 = (ofQ fun _ => 1#64) ∧ s.ymm 4 = (ofQ fun _ => gp.base - 1#64) ∧
    s.ymm 5 = (ofQ fun _ => BitVec.ofNat 64 gp.logBase - 1#64)

theorem decomposePolyToUint64AVX2_spec {F : Fpu} {gp : GadgetParams 64} {hdr p : BitVec 64} {N L c1 c2 : Nat}
    (hlb : 1 ≤ gp.logBase) (hlb' : gp.logBase < 2 ^ 32) (hL : 1 ≤ L) (hL' : L < 2 ^ 56) (hN : 4 ∣ N)
    (g : Reg → BitVec 64) (y : Nat → Y) (m : Memory) {A : Nat → BitVec 64} {base len cap : Nat → BitVec 64}
    (hA : Holds m p (dw A) (2 * N)) (hH : Holds m hdr (hdrWords base len cap) (6 * L))
    (ap : Apart m base L (2 * N) p hdr) :
    ∃ m', Returns F decomposePolyToUint64AVX2 (sliceArg hdr L c1 ++ sliceArg p N c2 ++
        (word64 gp.base ++ word64 (BitVec.ofNat 64 gp.logBase) ++ word64 (BitVec.ofNat 64 gp.logLastBaseQ))) (entry g y m) m' ∧
      Wrote m base (fun j => dw fun i => dcmpDigit gp (carry gp (A i) (L - 1 - j))) L
        (fun _ => (2 * N)) m' := by
  have e1 : target decomposePolyToUint64AVX2 .N_loop_end = 48 := by decide
  have e2 : target decomposePolyToUint64AVX2 .N_loop_body = 13 := by decide
  have e3 : target decomposePolyToUint64AVX2 .level_loop_end = 38 := by decide
  have e4 : target decomposePolyToUint64AVX2 .level_loop_body = 26 := by decide
  have hsz := ap.size
  have hll : gp.logLastBaseQ ≤ 64 := Nat.sub_le _ _
  have t1 : (BitVec.ofNat 64 gp.logBase).toNat = gp.logBase := by
    rw [BitVec.toNat_ofNat, Nat.mod_eq_of_lt (by omega)]
  have t2 : (BitVec.ofNat 64 gp.logLastBaseQ).toNat = gp.logLastBaseQ := by
    rw [BitVec.toNat_ofNat, Nat.mod_eq_of_lt (by omega)]
  have t3 : (BitVec.ofNat 64 gp.logBase - 1#64).toNat = gp.logBase - 1 := by
    rw [BitVec.toNat_sub_of_le (by rw [BitVec.le_def, t1]; simpa using hlb), t1]
    simp
  obtain ⟨D, hD⟩ : ∃ D : Nat → Nat → BitVec 64, ∀ j i, D j i = dcmpDigit gp (carry gp (A i) (L - 1 - j)) :=
    ⟨_, fun _ _ => rfl⟩
  have hfun : (fun j => dw fun i => dcmpDigit gp (carry gp (A i) (L - 1 - j))) =
      fun j => dw (D j) := by funext j; exact congrArg dw (funext fun i => (hD j i).symm)
  rw [hfun]
  set fp := sliceArg hdr L c1 ++ sliceArg p N c2 ++
        (word64 gp.base ++ word64 (BitVec.ofNat 64 gp.logBase) ++ word64 (BitVec.ofNat 64 gp.logLastBaseQ)) with hfp
  let I : Nat → St → Prop := fun i s => s.pc = 48 ∧ s.gpr .SI = BitVec.ofNat 64 i ∧ Consts64 gp hdr p N L s ∧
    Wrote m base (fun j => dw (D j)) L (fun _ => 2 * i) s.mem
  suffices h : Wp F decomposePolyToUint64AVX2 fp (entry g y m) (I N) by
    obtain ⟨n, ⟨pc, g, y, c, m', r⟩, e, h0, h1, ⟨h2, h3, h4, h5, -⟩, hw⟩ := h
    dsimp only at h0 h1 h2 h3 h4 h5 hw
    subst h0 h2
    have hl : (BitVec.ofNat 64 N).slt (BitVec.ofNat 64 N) = false := by
      rw [slt_ofNat (by omega) (by omega)]; simp
    refine ⟨m', ?_, hw⟩
    refine Wp.trans (Q := fun t => t = ⟨48, g, y, c, m', false⟩) ⟨n, _, e, rfl⟩ ?_
    rintro t rfl
    iterate 3 asm1 [h1, h5, hl, Bool.false_eq_true]
    refine Wp.step rfl ?_
    simp only [exec, wpO_some]
    exact .refl ⟨rfl, rfl⟩
  have start : Wp F decomposePolyToUint64AVX2 fp (entry g y m) (I 0) := by
    have a0 : arg64 fp 0 = some hdr := by simp [hfp, arg64, arg32, sliceArg, word64, join_split]
    have a1 : arg64 fp 24 = some p := by simp [hfp, arg64, arg32, sliceArg, word64, join_split]
    have a2 : arg64 fp 32 = some (BitVec.ofNat 64 N) := by
      simp [hfp, arg64, arg32, sliceArg, word64, join_ofNat]
    have a3 : arg64 fp 8 = some (BitVec.ofNat 64 L) := by
      simp [hfp, arg64, arg32, sliceArg, word64, join_ofNat]
    have a4 : arg64 fp 48 = some gp.base := by simp [hfp, arg64, arg32, sliceArg, word64, join_split]
    have a5 : arg64 fp 56 = some (BitVec.ofNat 64 gp.logBase) := by
      simp [hfp, arg64, arg32, sliceArg, word64, join_ofNat]
    have a6 : arg64 fp 64 = some (BitVec.ofNat 64 gp.logLastBaseQ) := by
      simp [hfp, arg64, arg32, sliceArg, word64, join_ofNat]
    unfold entry
    clear_value fp
    iterate 13 asm1 [a0, a1, a2, a3, a4, a5, a6, e1, VOp.eval, VImm.eval, mapQ_ofQ, srl1_ofQ]
    refine .refl ⟨rfl, by simp, ?_, ?_⟩
    · simp [Consts64]
    · exact ⟨fun j _ i hi => absurd hi (Nat.not_lt_zero _), fun _ _ => rfl⟩
  clear_value fp
  refine start.trans ?_
  obtain ⟨K, rfl⟩ := hN
  have body : ∀ k s, k < K → I (k * 4) s → Wp F decomposePolyToUint64AVX2 fp s (I (k * 4 + 4)) := by
    rintro k ⟨pc, g, y, c, M, r⟩ hk ⟨h0, h1, hc, hw⟩
    obtain ⟨h2, h3, h4, h5, h6, h7, h8, h9, h10, h11, h12⟩ := hc
    dsimp only at h0 h1 h2 h3 h4 h5 h6 h7 h8 h9 h10 h11 h12 hw
    subst h0 h2
    have hkK : k * 4 + 4 ≤ 4 * K := by nlinarith
    have hl : (BitVec.ofNat 64 (k * 4)).slt (BitVec.ofNat 64 (4 * K)) = true := by
      rw [slt_ofNat (by omega) (by omega), decide_eq_true_eq]; omega
    have l0 := hw.load hA (k := 2 * (k * 4)) 8 (by omega)
      (fun j hj i hi l hl => ap.inp j hj i _ (by omega) (by omega))
      (addr8 p (k * 4))
    rw [dw_eq_ofQ A (k * 4)] at l0
    -- the state before the digit loop, and before each of its passes
    let J : Nat → St → Prop := fun t s => s.pc = 38 ∧ s.gpr .SI = BitVec.ofNat 64 (k * 4) ∧
      Consts64 gp hdr p (4 * K) L s ∧ s.gpr .DI = BitVec.ofNat 64 (L - 1 - t) ∧
      s.gpr .R8 = BitVec.ofNat 64 (3 * (L - 1 - t)) ∧
      s.ymm 6 = (ofQ fun q => carry gp (A (k * 4 + q.val)) t) ∧
      Wrote m base (fun j => dw (D j)) L
        (fun j => if L - 1 - t < j then 2 * (k * 4) + 8 else 2 * (k * 4)) s.mem
    have pre : Wp F decomposePolyToUint64AVX2 fp ⟨48, g, y, c, M, false⟩ (J 0) := by
      iterate 16 asm1 [e2, e3, h1, h3, h4, h5, h6, h7, h8, h9, h10, h11, h12, hl, l0, VOp.eval, VImm.eval,
        sub_one_ofNat hL, three_ofNat, mapQ_ofQ, sll1_ofQ, and_ofQ]
      refine .refl ⟨rfl, by simpa using h1, ?_, by simp, by simp, ?_, ?_⟩
      · simp [Consts64, h3, h4, h5, h6, h7, h8, h9, h10, h11, h12]
      · simp [carry, divRoundBits, t2]
      · refine ⟨fun j hj i hi => hw.1 j hj i ?_, fun a ha => hw.2 a fun j hj i hi => ha j hj i ?_⟩
        · try dsimp only at hi
          try dsimp only
          rwa [if_neg (by omega)] at hi
        · try dsimp only
          rw [if_neg (by omega)]; exact hi
    refine pre.trans fun s hs => ?_
    have pass : ∀ t s, 0 ≤ t → t < L - 1 → J t s → Wp F decomposePolyToUint64AVX2 fp s (J (t + 1)) := by
      rintro t ⟨pc, g, y, c, M, r⟩ - ht ⟨h0, h1, hc, hd, hr, h6', hw⟩
      obtain ⟨h2, h3, h4, h5, h6, h7, h8, h9, h10, h11, h12⟩ := hc
      dsimp only at h0 h1 h2 h3 h4 h5 h6 h7 h8 h9 h10 h11 h12 hd hr h6' hw
      subst h0 h2
      generalize hdd : L - 1 - t = d at hd hr hw
      have hd1 : 1 ≤ d := by omega
      have hl : (1 : BitVec 64).sle (BitVec.ofNat 64 d) = true := by
        rw [show (1 : BitVec 64) = BitVec.ofNat 64 1 from rfl, sle_ofNat (by norm_num) (by omega),
          decide_eq_true_eq]; exact hd1
      have hcnt : ∀ j < L, (fun j => if d < j then 2 * (k * 4) + 8 else 2 * (k * 4)) j ≤ 2 * (4 * K) := by
        intro j _; dsimp only; split <;> omega
      have l1 := hw.load hH (k := 6 * d) 2 (by omega)
        (fun j hj i hi l hl => ap.hdrs j hj i (lt_of_lt_of_le hi (hcnt j hj)) _ (by omega))
        (addr24 hdr d)
      rw [hdr_base] at l1
      obtain ⟨M', l2, hw'⟩ := hw.store (a := base d + BitVec.ofNat 64 (k * 4) * 8 + 0)
        (cnt' := fun j => if L - 1 - (t + 1) < j then 2 * (k * 4) + 8 else 2 * (k * 4)) (j := d)
        (v := ofQ fun q => dcmpDigit gp (carry gp (A (k * 4 + q.val)) t)) ap (by omega) hcnt
        (by simp only [lt_irrefl, if_false]; omega) (by simp only [lt_irrefl, if_false]; exact addr8 (base d) (k * 4))
        (by intro l; simp only [lt_irrefl, if_false]; rw [← congrFun (dw_eq_ofQ (fun i => dcmpDigit gp (carry gp (A i) t)) (k * 4)) l]; congr 1; funext i; rw [hD]; congr 2; omega)
        (by simp only [lt_irrefl, if_false]; rw [if_pos (by omega)])
        (by
          intro i hi hid
          try dsimp only
          by_cases hlt : d < i
          · rw [if_pos hlt, if_pos (by omega)]
          · rw [if_neg hlt, if_neg (by omega)])
      simp only [dcmpDigit] at l2
      iterate 15 asm1 [e4, h1, h3, h4, h5, h6, h7, h8, h9, h10, h11, h12, hd, hr, h6', hl, l1, l2, join2_split2,
        VOp.eval, VImm.eval, sub_one_ofNat hd1, sub_three_ofNat hd1, mapQ_ofQ, sll1_ofQ, and_ofQ]
      refine .refl ⟨rfl, by simpa using h1, ?_, ?_, ?_, ?_, hw'⟩
      · simp [Consts64, h3, h4, h5, h6, h7, h8, h9, h10, h11, h12]
      · simp only [Function.update_apply, reduceCtorEq, if_true, if_false]; congr 1; omega
      · simp only [Function.update_apply, reduceCtorEq, if_true, if_false]; congr 1; omega
      · simp [carry, dcmpNext, t1, t3, h6', h8, h12]
    refine (Wp.loop1 pass (Nat.zero_le _) s hs).trans ?_
    rintro ⟨pc, g, y, c, M, r⟩ ⟨h0, h1, hc, hd, hr, h6', hw⟩
    obtain ⟨h2, h3, h4, h5, h6, h7, h8, h9, h10, h11, h12⟩ := hc
    dsimp only at h0 h1 h2 h3 h4 h5 h6 h7 h8 h9 h10 h11 h12 hd hr h6' hw
    subst h0 h2
    rw [Nat.sub_self] at hd hr hw
    have hl : (1 : BitVec 64).sle (BitVec.ofNat 64 0) = false := by decide
    have hcnt : ∀ j < L, (fun j => if 0 < j then 2 * (k * 4) + 8 else 2 * (k * 4)) j ≤ 2 * (4 * K) := by
      intro j _; dsimp only; split <;> omega
    have l1 := hw.load hH (k := 6 * 0) (a := hdr + 0) 2 (by omega)
      (fun j hj i hi l hl => ap.hdrs j hj i (lt_of_lt_of_le hi (hcnt j hj)) _ (by omega))
      (by simp)
    rw [hdr_base] at l1
    obtain ⟨M', l2, hw'⟩ := hw.store (a := base 0 + BitVec.ofNat 64 (k * 4) * 8 + 0)
      (cnt' := fun j => 2 * (k * 4 + 4)) (j := 0)
      (v := ofQ fun q => dcmpDigit gp (carry gp (A (k * 4 + q.val)) (L - 1))) ap (by omega) hcnt
      (by simp only [lt_irrefl, if_false]; omega) (by simp only [lt_irrefl, if_false]; exact addr8 (base 0) (k * 4))
      (by intro l; simp only [lt_irrefl, if_false]; rw [← congrFun (dw_eq_ofQ (fun i => dcmpDigit gp (carry gp (A i) (L - 1))) (k * 4)) l]; congr 1; funext i; rw [hD]; congr 2)
      (by simp only [lt_irrefl, if_false]; omega)
      (by
        intro i hi hid
        try dsimp only
        rw [if_pos (by omega)]; try omega)
    simp only [dcmpDigit] at l2
    iterate 10 asm1 [h1, h3, h4, h5, h6, h7, h8, h9, h10, h11, h12, hd, hr, h6', hl, l1, l2, join2_split2,
      Bool.false_eq_true, VOp.eval, VImm.eval, mapQ_ofQ, sll1_ofQ, and_ofQ]
    refine .refl ⟨rfl, ?_, ?_, hw'⟩
    · simp [BitVec.ofNat_add]
    · simp [Consts64, h3, h4, h5, h6, h7, h8, h9, h10, h11, h12]
  intro s hs
  have := Wp.loop body K (le_refl _) s hs
  rwa [Nat.mul_comm] at this


end Asm
end Tfhe

