import Verif.Model.EncFloat
import Verif.Props.C56
import Verif.Props.C60
import Verif.Props.C28

/-!
# Encryption with rounded transforms computes the exact encryption with bounded noise
-/
namespace Tfhe.Enc
open Tfhe Rng Gauss Fft Poly

/-- The conversion of an infinity to `int64` is the smallest or the largest integer, as on all platforms with a conversion
instruction. -/
def Saturates (M : Libm) : Prop := ∀ b, M.int64 (.inf b) = BitVec.intMin 64 ∨ M.int64 (.inf b) = BitVec.intMax 64

/-- The platform saturates, or no two neighbours in the stream are small. -/
def Fair (M : Libm) (ws : List (BitVec 32)) : Prop := Saturates M ∨ NoTwoSmall ws

/-- A sample of at most 8.074 standard deviations, up to half the modulus. -/
def NearNoise {w : ℕ} (σ : ℝ) (v : BitVec w) : Prop := ∃ n : BitVec w, IsNoise σ n ∧ v + v = n + n

/-- On every stream of the class `S` the computation does not panic, and what it returns satisfies `Q`.  The rest of the stream is an
end of the stream. -/
def On {α : Type} (S : List (BitVec 32) → Prop) (m : Stream α) (Q : α → Prop) : Prop :=
  ∀ ws, S ws → m ws ≠ .panic ∧ ∀ a rest, m ws = .ok a rest → Q a ∧ rest <:+ ws

/-- On fair streams. -/
def Always {α : Type} (M : Libm) (m : Stream α) (Q : α → Prop) : Prop := On (Fair M) m Q

/-- On streams without two small neighbours. -/
def Mostly {α : Type} (m : Stream α) (Q : α → Prop) : Prop := On NoTwoSmall m Q

section
variable {α β : Type} {Q : α → Prop} {R : β → Prop} {S : List (BitVec 32) → Prop}

theorem On.mono {m : Stream α} {Q' : α → Prop} (h : On S m Q) (hq : ∀ a, Q a → Q' a) : On S m Q' :=
  fun ws hs => ⟨(h ws hs).1, fun a rest e => ⟨hq a ((h ws hs).2 a rest e).1, ((h ws hs).2 a rest e).2⟩⟩

theorem On.ret {a : α} (h : Q a) : On S (pure a : Stream α) Q := by
  intro ws _
  have e : (pure a : Stream α) ws = .ok a ws := rfl
  rw [e]
  refine ⟨fun h => by simp at h, fun b rest e => ?_⟩
  obtain ⟨rfl, rfl⟩ := Outcome.ok.inj e
  exact ⟨h, List.suffix_refl _⟩

theorem On.ofPanic {o : Option α} {a : α} (ho : o = some a) (h : Q a) : On S (Enc.ofPanic o) Q := by
  subst ho
  exact On.ret h

variable (hS : ∀ ws rest, S ws → rest <:+ ws → S rest)
include hS

theorem On.bind {m : Stream α} {f : α → Stream β} (h : On S m Q) (hf : ∀ a, Q a → On S (f a) R) : On S (m >>= f) R := by
  intro ws hs
  obtain ⟨h1, h2⟩ := h ws hs
  have e : (m >>= f) ws = match m ws with
    | .panic => .panic
    | .reading => .reading
    | .ok a rest => f a rest := rfl
  rw [e]
  cases hm : m ws with
  | panic => exact absurd hm h1
  | reading => exact ⟨fun h => by simp at h, fun a rest h => by simp at h⟩
  | ok a rest =>
    obtain ⟨qa, hr⟩ := h2 a rest hm
    obtain ⟨h3, h4⟩ := hf a qa rest (hS ws rest hs hr)
    exact ⟨h3, fun b r hb => ⟨(h4 b r hb).1, (h4 b r hb).2.trans hr⟩⟩

/-- A loop that updates the elements of an array one after the other. -/
theorem On.loop {ι : Type} [DecidableEq ι] {A : Type} (f : (ι → A) → ι → Stream (ι → A)) (P : ι → A → A → Prop)
    (l : List ι) (hl : l.Nodup)
    (hf : ∀ s i, i ∈ l → On S (f s i) (fun s' => ∃ c, P i (s i) c ∧ s' = Function.update s i c)) (s : ι → A) :
    On S (l.foldlM f s) (fun s' => ∀ i, (i ∈ l → P i (s i) (s' i)) ∧ (i ∉ l → s' i = s i)) := by
  induction l generalizing s with
  | nil => exact On.ret fun i => ⟨by simp, fun _ => rfl⟩
  | cons j l ih =>
    obtain ⟨hj, hl⟩ := List.nodup_cons.mp hl
    rw [List.foldlM_cons]
    refine On.bind hS (hf s j List.mem_cons_self) ?_
    rintro _ ⟨c, hc, rfl⟩
    refine (ih hl (fun s i hi => hf s i (List.mem_cons_of_mem _ hi)) (Function.update s j c)).mono fun s' h i => ?_
    obtain ⟨h1, h2⟩ := h i
    by_cases hij : i = j
    · subst hij
      rw [Function.update_self] at h2
      exact ⟨fun _ => by rw [h2 hj]; exact hc, fun h => absurd List.mem_cons_self h⟩
    · rw [Function.update_of_ne hij] at h1 h2
      refine ⟨fun hi => h1 ((List.mem_cons.mp hi).resolve_left hij), fun hi => h2 fun h => hi (List.mem_cons_of_mem _ h)⟩
end

theorem mild_suffix (ws rest : List (BitVec 32)) (h : NoTwoSmall ws) (hr : rest <:+ ws) : NoTwoSmall rest := by
  obtain ⟨t, rfl⟩ := hr
  intro pre a b post e
  exact h (t ++ pre) a b post (by rw [e, List.append_assoc])

section
variable {M : Libm} {α β : Type} {Q : α → Prop} {R : β → Prop}

theorem fair_suffix {ws rest : List (BitVec 32)} (h : Fair M ws) (hr : rest <:+ ws) : Fair M rest :=
  h.imp_right fun h => mild_suffix ws rest h hr

theorem Always.mono {m : Stream α} {Q' : α → Prop} (h : Always M m Q) (hq : ∀ a, Q a → Q' a) : Always M m Q' := On.mono h hq

theorem Always.ret {a : α} (h : Q a) : Always M (pure a : Stream α) Q := On.ret h

theorem Always.bind {m : Stream α} {f : α → Stream β} (h : Always M m Q) (hf : ∀ a, Q a → Always M (f a) R) :
    Always M (m >>= f) R := On.bind (fun _ _ => fair_suffix) h hf

theorem Always.ofPanic {o : Option α} {a : α} (ho : o = some a) (h : Q a) : Always M (Enc.ofPanic o) Q := On.ofPanic ho h

theorem Always.loop {ι : Type} [DecidableEq ι] {A : Type} (f : (ι → A) → ι → Stream (ι → A)) (P : ι → A → A → Prop)
    (l : List ι) (hl : l.Nodup)
    (hf : ∀ s i, i ∈ l → Always M (f s i) (fun s' => ∃ c, P i (s i) c ∧ s' = Function.update s i c)) (s : ι → A) :
    Always M (l.foldlM f s) (fun s' => ∀ i, (i ∈ l → P i (s i) (s' i)) ∧ (i ∉ l → s' i = s i)) :=
  On.loop (fun _ _ => fair_suffix) f P l hl hf s

/-- Streams without two small neighbours are fair. -/
theorem Always.mostly {m : Stream α} (h : Always M m Q) : Mostly m Q := fun ws hs => h ws (.inr hs)
end

/-- Bits are short. -/
theorem bit_le {w : ℕ} (x : BitVec w) (h : x = 0 ∨ x = 1) : |x.toInt| ≤ 2 ^ 8 := by
  rcases h with rfl | rfl
  · simp
  · have := wabs_ofInt_le (w := w) 1
    unfold wabs at this
    rw [show BitVec.ofInt w 1 = 1 from rfl] at this
    rw [Int.abs_eq_natAbs]
    have h2 : ((1 : BitVec w).toInt.natAbs : ℤ) ≤ 1 := by exact_mod_cast this
    exact h2.trans (by norm_num)

/-! ## Samples -/

theorem ofCoeffs_toList {N w : ℕ} (p : Poly N (BitVec w)) : ofCoeffs N (Poly.toList p) = p := by
  funext i
  unfold ofCoeffs Poly.toList
  have h : (List.ofFn (n := N) fun i => p i)[(i : ℕ)]? = some (p i) := by simp
  rw [List.getD_eq_getElem?_getD]
  exact congrArg (Option.getD · 0) h

section
variable {M : Libm} (hM : GoodLibm M) {w N : ℕ} (hw : w ≤ 64) {σ : ℝ} (h0 : 1 / 16 ≤ σ) (hσ : 8.074 * σ + 1 / 2 < 2 ^ 63)

include hM in
theorem tailLoop_any (ws : List (BitVec 32)) (x : Ext) (rest : List (BitVec 32)) (h : tailLoop M ws = some (x, rest)) :
    (∃ v, x = .fin v ∧ 0 ≤ v ∧ v ≤ 4.631) ∨ x = .inf false := by
  induction ws using tailLoop.induct M with
  | case1 a b post x' y' hc =>
    rw [tailLoop, if_pos hc] at h
    obtain ⟨rfl, -⟩ := Prod.mk.inj (Option.some.inj h)
    by_cases ha : 512 ≤ a.toNat
    · exact .inl (tail_x hM a ha)
    · right
      have hr : M.fl (-rnInv : ℚ) < 0 := fl_neg' hM (by rw [rnInv_real]; norm_num)
      rw [log_small hM a (by omega)]
      generalize M.fl (-rnInv : ℚ) = r at hr
      simp [Ext.mul, hr.ne, hr]
  | case2 a b post x' y' hc ih =>
    rw [tailLoop, if_neg hc] at h
    exact ih h
  | case3 l hl =>
    rw [tailLoop] at h
    · exact absurd h (by simp)
    · exact hl

include hM in
/-- A normal sample is bounded or infinite, whatever words are read. -/
theorem normFloat_any (ws : List (BitVec 32)) (x : Ext) (rest : List (BitVec 32)) (h : normFloat M ws = some (x, rest)) :
    (∃ v, x = .fin v ∧ |v| ≤ 8.0737) ∨ ∃ b, x = .inf b := by
  induction hn : ws.length using Nat.strong_induction_on generalizing ws with
  | _ n ih =>
  match ws, h, hn with
  | [], h, _ => rw [normFloat] at h; simp at h
  | hd :: post, h, hn =>
    rw [normFloat.eq_def] at h
    simp only at h
    have hi := index_lt hd
    have hu := mantissa_lt hd
    generalize ((hd >>> 1) &&& 127).toNat = i at h hi
    generalize (hd >>> 8).toNat = u at h hu
    have hx (h0 : i = 0 → u < kn i) :
        |if 0 < (hd &&& 1).toNat then -M.fl (u * wn M i) else M.fl (u * wn M i)| ≤ 8.0737 := by
      have := head_bound hM u i hi hu h0
      split
      · rw [abs_neg]; exact this.trans (by norm_num)
      · exact this.trans (by norm_num)
    generalize (if 0 < (hd &&& 1).toNat then -M.fl (u * wn M i) else M.fl (u * wn M i)) = xv at h hx
    split at h
    · next hk =>
      obtain ⟨rfl, -⟩ := Prod.mk.inj (Option.some.inj h)
      exact .inl ⟨_, rfl, hx fun _ => hk⟩
    · split at h
      · next hk hi0 =>
        obtain ⟨⟨x', r'⟩, e1, e2⟩ := Option.map_eq_some_iff.mp h
        obtain ⟨e3, -⟩ := Prod.mk.inj e2
        rcases tailLoop_any hM post x' r' e1 with ⟨v, rfl, h1, h2⟩ | rfl
        · left
          have hr : |M.fl (rn : ℚ)| ≤ 3.442619855899 * (1 + 2⁻¹ ^ 53) := fl_le hM (by
            rw [rn]; push_cast; norm_num)
          have hb : |M.fl (v + M.fl (rn : ℚ))| ≤ 8.0737 := by
            have : |v + M.fl (rn : ℚ)| ≤ 4.631 + 3.442619855899 * (1 + 2⁻¹ ^ 53) :=
              (abs_add_le _ _).trans (add_le_add (by rwa [abs_of_nonneg h1]) hr)
            exact (fl_le hM this).trans (by norm_num)
          subst e3
          split
          · exact ⟨_, rfl, by rw [abs_neg]; exact hb⟩
          · exact ⟨_, rfl, hb⟩
        · right
          subst e3
          split
          · exact ⟨true, rfl⟩
          · exact ⟨false, rfl⟩
      · next hk hi0 =>
        split at h
        · simp at h
        · next a post' =>
          split at h
          · obtain ⟨rfl, -⟩ := Prod.mk.inj (Option.some.inj h)
            exact .inl ⟨_, rfl, hx fun e => absurd e hi0⟩
          · exact ih post'.length (by rw [← hn]; simp) post' h rfl

theorem two_mul_intMin (hw : w ≤ 64) : 2 * (BitVec.intMin 64).setWidth w = (0 : BitVec w) := by
  apply BitVec.eq_of_toNat_eq
  have h : (BitVec.intMin 64).toNat = 2 ^ 63 := by decide
  rw [BitVec.toNat_mul, BitVec.toNat_setWidth, h]
  rcases Nat.eq_zero_or_pos w with rfl | h1
  · simp [Nat.mod_one]
  · have h2 : (2 : BitVec w).toNat % 2 ^ w = 2 % 2 ^ w := by simp
    have h3 : (2 : BitVec w).toNat * (2 ^ 63 % 2 ^ w) % 2 ^ w = 2 * 2 ^ 63 % 2 ^ w := by
      rw [Nat.mul_mod, h2, Nat.mod_mod, ← Nat.mul_mod]
    rw [h3]
    have : 2 * 2 ^ 63 = 2 ^ w * 2 ^ (64 - w) := by rw [← pow_add, ← pow_succ']; congr 1; omega
    rw [this, Nat.mul_mod_right]
    simp

theorem setWidth_ofInt64 (hw : w ≤ 64) (k : ℤ) : (BitVec.ofInt 64 k).setWidth w = BitVec.ofInt w k := by
  apply BitVec.eq_of_toNat_eq
  rw [BitVec.toNat_setWidth, BitVec.toNat_ofInt, BitVec.toNat_ofInt]
  have hd : ((2 ^ w : ℕ) : ℤ) ∣ ((2 ^ 64 : ℕ) : ℤ) := by exact_mod_cast pow_dvd_pow 2 hw
  zify
  rw [Int.toNat_of_nonneg (Int.emod_nonneg _ (by positivity)), Int.toNat_of_nonneg (Int.emod_nonneg _ (by positivity))]
  push_cast at hd ⊢
  rw [Int.emod_emod_of_dvd _ hd]

theorem two_mul_intMax (hw : w ≤ 64) : 2 * (BitVec.intMax 64).setWidth w = (2 * -1 : BitVec w) := by
  have h : (BitVec.intMax 64) = BitVec.intMin 64 + BitVec.ofInt 64 (-1) := by decide
  have h2 : (BitVec.ofInt 64 (-1)).setWidth w = (-1 : BitVec w) := by
    rw [setWidth_ofInt64 hw, bv_ofInt_eq_cast]
    push_cast
    rfl
  rw [h, BitVec.setWidth_add _ _ hw, mul_add, two_mul_intMin hw, zero_add, h2]

include hM hw h0 hσ in
theorem near_of (ws : List (BitVec 32)) (hs : Fair M ws) (x : Ext) (rest : List (BitVec 32)) (h : normFloat M ws = some (x, rest)) :
    NearNoise σ (toT M w σ x) := by
  have hp : 0 < σ := lt_of_lt_of_le (by norm_num) h0
  rcases hs with hs | hs
  · rcases normFloat_any hM ws x rest h with ⟨v, rfl, hv⟩ | ⟨b, rfl⟩
    · obtain ⟨h1, h2⟩ := toT_fin hM hw hp.le hσ hv
      exact ⟨_, ⟨_, h2, h1⟩, rfl⟩
    · have e : toT M w σ (.inf b) = (M.int64 (.inf b)).setWidth w := by
        simp [toT, Ext.mul, Ext.round, hp.ne', hp.not_gt]
      rw [e]
      rcases hs b with h | h <;> rw [h]
      · exact ⟨0, ⟨0, by simp, by simp; linarith⟩, by rw [← two_mul, two_mul_intMin hw, add_zero]⟩
      · exact ⟨-1, ⟨-1, by rw [bv_ofInt_eq_cast]; push_cast; rfl, by norm_num; linarith⟩, by rw [← two_mul, ← two_mul, two_mul_intMax hw]⟩
  · exact ⟨_, noise_of hM hw hp.le hσ ws hs x rest h, rfl⟩

include hM hw h0 hσ in
theorem always_sample : Always M (sample M w σ : Stream (BitVec w)) (NearNoise σ) := by
  intro ws hs
  have hp : ¬σ < 0 := not_lt.mpr (le_trans (by norm_num) h0)
  refine ⟨fun h => absurd ((C60_panic (w := w) (M := M) (σ := σ) ws []).1.mp h) hp, fun v rest h => ?_⟩
  obtain ⟨used, -, e, -⟩ := C60_reads ws v rest h
  rw [sample, if_neg hp] at h
  obtain ⟨⟨x, r⟩, e1, e2⟩ := Option.map_eq_some_iff.mp (ofOption_ok h)
  obtain ⟨rfl, rfl⟩ := Prod.mk.inj e2
  exact ⟨near_of hM hw h0 hσ ws hs x r e1, ⟨used, e.symm⟩⟩

include hM hw h0 hσ in
theorem vecLoop_near (op : BitVec w → BitVec w → BitVec w) (cs : List (BitVec w)) (ws : List (BitVec 32)) (hs : Fair M ws)
    (l : List (BitVec w)) (rest : List (BitVec 32)) (h : vecLoop M op σ cs ws = some (l, rest)) :
    rest <:+ ws ∧ ∃ noise : List (BitVec w), noise.length = cs.length ∧ (∀ v ∈ noise, NearNoise σ v) ∧ l = cs.zipWith op noise := by
  induction cs generalizing ws l with
  | nil =>
    rw [vecLoop] at h
    obtain ⟨rfl, rfl⟩ := Prod.mk.inj (Option.some.inj h)
    exact ⟨List.suffix_refl _, [], rfl, by simp, rfl⟩
  | cons c cs ih =>
    rw [vecLoop] at h
    obtain ⟨⟨x, ws'⟩, e1, e2⟩ := Option.bind_eq_some_iff.mp h
    obtain ⟨⟨l', r'⟩, e3, e4⟩ := Option.map_eq_some_iff.mp e2
    obtain ⟨e5, rfl⟩ := Prod.mk.inj e4
    obtain ⟨used, -, e6, -⟩ := normFloat_reads ws x ws' e1
    have hsuf : ws' <:+ ws := ⟨used, e6.symm⟩
    obtain ⟨n0, noise, n1, n2, n3⟩ := ih ws' (fair_suffix hs hsuf) l' e3
    refine ⟨n0.trans hsuf, toT M w σ x :: noise, by simp [n1], ?_, by rw [← e5, n3]; rfl⟩
    intro v hv
    rcases List.mem_cons.mp hv with rfl | hv
    · exact near_of hM hw h0 hσ ws hs x ws' e1
    · exact n2 v hv

include hM hw h0 hσ

theorem always_addNoise (p : Poly N (BitVec w)) :
    Always M (addNoise M σ p) (fun q => ∃ n : Poly N (BitVec w), (∀ i, NearNoise σ (n i)) ∧ q = p + n) := by
  have hp : ¬σ < 0 := not_lt.mpr (le_trans (by norm_num) h0)
  refine Always.bind (Q := fun l : List (BitVec w) => ∃ n : Poly N (BitVec w), (∀ i, NearNoise σ (n i)) ∧ ofCoeffs N l = p + n) ?_ ?_
  · intro ws hs
    refine ⟨fun h => absurd ((C60_panic (M := M) (σ := σ) ws (Poly.toList p)).2.2.1.mp h) hp, fun l rest h => ?_⟩
    rw [samplePolyAddTo, if_neg hp] at h
    obtain ⟨hsuf, noise, n1, n2, rfl⟩ := vecLoop_near hM hw h0 hσ _ _ ws hs l rest (ofOption_ok h)
    have hn1 : noise.length = N := by rw [n1]; unfold Poly.toList; erw [List.length_ofFn]
    refine ⟨⟨ofCoeffs N noise, fun i => n2 _ ?_, ?_⟩, hsuf⟩
    · unfold ofCoeffs
      have : (i : ℕ) < noise.length := hn1 ▸ i.2
      rw [List.getD_eq_getElem _ _ this]
      exact List.getElem_mem _
    · funext i
      have h1 : (i : ℕ) < noise.length := hn1 ▸ i.2
      have h2 : (i : ℕ) < (Poly.toList p).length := n1 ▸ h1
      have h3 : (Poly.toList p)[(i : ℕ)] = p i := by
        unfold Poly.toList
        erw [List.getElem_ofFn]
      unfold ofCoeffs
      rw [List.getD_eq_getElem _ _ (by rw [List.length_zipWith]; omega), List.getElem_zipWith, h3]
      show _ = p i + noise.getD i 0
      rw [List.getD_eq_getElem _ _ h1]
  · rintro l ⟨n, hn, e⟩
    exact Always.ret ⟨n, hn, e⟩

theorem mostly_addNoise (p : Poly N (BitVec w)) :
    Mostly (addNoise M σ p) (fun q => ∃ n : Poly N (BitVec w), (∀ i, IsNoise σ (n i)) ∧ q = p + n) := by
  have hp : ¬σ < 0 := not_lt.mpr (le_trans (by norm_num) h0)
  refine On.bind mild_suffix
    (Q := fun l : List (BitVec w) => ∃ n : Poly N (BitVec w), (∀ i, IsNoise σ (n i)) ∧ ofCoeffs N l = p + n) ?_ ?_
  · intro ws hs
    refine ⟨fun h => absurd ((C60_panic (M := M) (σ := σ) ws (Poly.toList p)).2.2.1.mp h) hp, fun l rest h => ?_⟩
    have hsuf : rest <:+ ws := by
      have h' := h
      rw [samplePolyAddTo, if_neg hp] at h'
      exact (vecLoop_near hM hw h0 hσ _ _ ws (.inr hs) l rest (ofOption_ok h')).1
    obtain ⟨noise, n1, n2, -, rfl⟩ := C60_add_partial hM hw hσ ws hs _ l rest h
    have hn1 : noise.length = N := by rw [n1]; unfold Poly.toList; erw [List.length_ofFn]
    refine ⟨⟨ofCoeffs N noise, fun i => n2 _ ?_, ?_⟩, hsuf⟩
    · unfold ofCoeffs
      have : (i : ℕ) < noise.length := hn1 ▸ i.2
      rw [List.getD_eq_getElem _ _ this]
      exact List.getElem_mem _
    · funext i
      have h1 : (i : ℕ) < noise.length := hn1 ▸ i.2
      have h2 : (i : ℕ) < (Poly.toList p).length := n1 ▸ h1
      have h3 : (Poly.toList p)[(i : ℕ)] = p i := by
        unfold Poly.toList
        erw [List.getElem_ofFn]
      unfold ofCoeffs
      rw [List.getD_eq_getElem _ _ (by rw [List.length_zipWith]; omega), List.getElem_zipWith, h3]
      show _ = p i + noise.getD i 0
      rw [List.getD_eq_getElem _ _ h1]
  · rintro l ⟨n, hn, e⟩
    exact On.ret ⟨n, hn, e⟩

theorem always_setNoise (p : Poly N (BitVec w)) : Always M (setNoise M σ p) (fun q => ∀ i, NearNoise σ (q i)) := by
  have hp : ¬σ < 0 := not_lt.mpr (le_trans (by norm_num) h0)
  refine Always.bind (Q := fun l : List (BitVec w) => ∀ i, NearNoise σ (ofCoeffs N l i)) ?_ ?_
  · intro ws hs
    refine ⟨fun h => absurd ((C60_panic (M := M) (σ := σ) ws (Poly.toList p)).2.1.mp h) hp, fun l rest h => ?_⟩
    rw [sampleVecTo, if_neg hp] at h
    obtain ⟨hsuf, noise, n1, n2, rfl⟩ := vecLoop_near hM hw h0 hσ _ _ ws hs l rest (ofOption_ok h)
    have hn1 : noise.length = N := by rw [n1]; unfold Poly.toList; erw [List.length_ofFn]
    refine ⟨fun i => n2 _ ?_, hsuf⟩
    unfold ofCoeffs
    have h1 : (i : ℕ) < noise.length := hn1 ▸ i.2
    rw [List.getD_eq_getElem _ _ (by rw [List.length_zipWith]; omega), List.getElem_zipWith]
    exact List.getElem_mem _
  · intro l h
    exact Always.ret h
end

/-! ## Products -/
section
variable {F : Float64} (hF : Accurate F) {l : ℕ} {N : BitVec 64} (hN : N.toInt = 2 ^ (l + 4)) {e : Eval ℝ}
  (he : newEvaluatorFl F.arith F.cis N = some e) {w : ℕ} (hw : 0 < w) (hw64 : w ≤ 64) (hl : l + 4 ≤ 27) (signed : Bool)
include hF hN he hw hw64 hl

theorem mulSub_eq (old old' : ℕ → ℝ) (out p s : Poly (2 ^ (l + 4)) (BitVec w)) (hs : ∀ i, |(s i).toInt| ≤ 2 ^ 8) :
    mulSub F signed e old out p (fwdFFTFl F.arith e old' (arr s)) = some (out - p * s) := by
  have h := C56_shortSub hF hN he hw hw64 hl signed old old' out p s hs
  have h' : shortMulSubToFl F.arith signed e old (Poly.toList out) (arr p) (fwdFFTFl F.arith e old' (arr s)) =
    some (Poly.toList (out - p * s)) := h
  rw [mulSub, h', Option.map_some, ofCoeffs_toList]

theorem mulAdd_eq (old old' : ℕ → ℝ) (out p s : Poly (2 ^ (l + 4)) (BitVec w)) (hs : ∀ i, |(s i).toInt| ≤ 2 ^ 8) :
    mulAdd F signed e old out p (fwdFFTFl F.arith e old' (arr s)) = some (out + p * s) := by
  have h := C56_shortAdd hF hN he hw hw64 hl signed old old' out p s hs
  have h' : shortMulAddToFl F.arith signed e old (Poly.toList out) (arr p) (fwdFFTFl F.arith e old' (arr s)) =
    some (Poly.toList (out + p * s)) := h
  rw [mulAdd, h', Option.map_some, ofCoeffs_toList]

omit hF hN he hw hw64 hl in
theorem foldlM_some {α ι : Type} (f : α → ι → Option α) (g : α → ι → α) (l : List ι) (h : ∀ a i, f a i = some (g a i)) (a : α) :
    l.foldlM f a = some (l.foldl g a) := by
  induction l generalizing a with
  | nil => rfl
  | cons i l ih => rw [List.foldlM_cons, h, List.foldl_cons]; exact ih _

variable {k : ℕ}

/-- `EncryptGLWEBody`: the exact encryption with a bounded noise. -/
theorem always_encryptGLWEBody {M : Libm} (hM : GoodLibm M) {σ : ℝ} (h0 : 1 / 16 ≤ σ) (hσ : 8.074 * σ + 1 / 2 < 2 ^ 63)
    (old old' : Fin k → ℕ → ℝ) (sk mask : Fin k → Poly (2 ^ (l + 4)) (BitVec w)) (hs : ∀ i t, |(sk i t).toInt| ≤ 2 ^ 8)
    (body : Poly (2 ^ (l + 4)) (BitVec w)) :
    Always M (encryptGLWEBody F M signed e σ old (fwdFFTKey F e old' sk) mask body)
      (fun ct => ∃ n : Poly (2 ^ (l + 4)) (BitVec w), (∀ i, NearNoise σ (n i)) ∧
        ct = Tfhe.encryptGLWEBody sk mask 0 n body) := by
  refine Always.bind (Q := fun b => b = (List.finRange k).foldl (fun b i => b - mask i * sk i) body)
    (Always.ofPanic (foldlM_some _ _ _ (fun b i => mulSub_eq hF hN he hw hw64 hl signed _ _ _ _ _ (hs i)) body) rfl) ?_
  rintro _ rfl
  refine Always.bind (always_addNoise hM hw64 h0 hσ _) ?_
  rintro _ ⟨n, hn, rfl⟩
  refine Always.ret ⟨n, hn, ?_⟩
  unfold Tfhe.encryptGLWEBody
  simp only [Fin.foldl_eq_finRange_foldl, Pi.zero_apply, add_zero]

/-- `EncryptGLWEBody` on streams without two small neighbours. -/
theorem mostly_encryptGLWEBody {M : Libm} (hM : GoodLibm M) {σ : ℝ} (h0 : 1 / 16 ≤ σ) (hσ : 8.074 * σ + 1 / 2 < 2 ^ 63)
    (old old' : Fin k → ℕ → ℝ) (sk mask : Fin k → Poly (2 ^ (l + 4)) (BitVec w)) (hs : ∀ i t, |(sk i t).toInt| ≤ 2 ^ 8)
    (body : Poly (2 ^ (l + 4)) (BitVec w)) :
    Mostly (encryptGLWEBody F M signed e σ old (fwdFFTKey F e old' sk) mask body)
      (fun ct => ∃ n : Poly (2 ^ (l + 4)) (BitVec w), (∀ i, IsNoise σ (n i)) ∧
        ct = Tfhe.encryptGLWEBody sk mask 0 n body) := by
  refine On.bind mild_suffix (Q := fun b => b = (List.finRange k).foldl (fun b i => b - mask i * sk i) body)
    (On.ofPanic (foldlM_some _ _ _ (fun b i => mulSub_eq hF hN he hw hw64 hl signed _ _ _ _ _ (hs i)) body) rfl) ?_
  rintro _ rfl
  refine On.bind mild_suffix (mostly_addNoise hM hw64 h0 hσ _) ?_
  rintro _ ⟨n, hn, rfl⟩
  refine On.ret ⟨n, hn, ?_⟩
  unfold Tfhe.encryptGLWEBody
  simp only [Fin.foldl_eq_finRange_foldl, Pi.zero_apply, add_zero]

/-- `DecryptGLWEPhaseTo`: the exact phase. -/
theorem decryptGLWEPhase_eq (old old' : Fin k → ℕ → ℝ) (sk : Fin k → Poly (2 ^ (l + 4)) (BitVec w))
    (hs : ∀ i t, |(sk i t).toInt| ≤ 2 ^ 8) (ct : Fin (k + 1) → Poly (2 ^ (l + 4)) (BitVec w)) :
    decryptGLWEPhase F signed e old (fwdFFTKey F e old' sk) ct = some (phase sk ct) := by
  have h1 := (foldlM_some _ (fun b i => b + ct i.succ * sk i) _
    (fun b i => mulAdd_eq hF hN he hw hw64 hl signed (old i) (old' i) b (ct i.succ) (sk i) (hs i)) (ct 0) :
      decryptGLWEPhase F signed e old (fwdFFTKey F e old' sk) ct = some ((List.finRange k).foldl _ (ct 0)))
  refine Eq.trans h1 ?_
  have := C07_decryptPhase sk (fun _ => (0 : Poly (2 ^ (l + 4)) (BitVec w))) ct
  rw [Finset.sum_const_zero, add_zero] at this
  rw [← this]
  unfold Tfhe.decryptGLWEPhase
  simp only [Fin.foldl_eq_finRange_foldl, add_zero]

/-- The GLWE part of `GenPublicKey`. -/
theorem always_genGLWEPublicKey {M : Libm} (hM : GoodLibm M) {σ : ℝ} (h0 : 1 / 16 ≤ σ) (hσ : 8.074 * σ + 1 / 2 < 2 ^ 63)
    (old : Fin k → Fin k → ℕ → ℝ) (old' : Fin k → ℕ → ℝ) (sk : Fin k → Poly (2 ^ (l + 4)) (BitVec w))
    (mask : Fin k → Fin k → Poly (2 ^ (l + 4)) (BitVec w)) (hs : ∀ i t, |(sk i t).toInt| ≤ 2 ^ 8) :
    Always M (genGLWEPublicKey F M signed e σ old (fwdFFTKey F e old' sk) mask)
      (fun pk => ∃ n : Fin k → Poly (2 ^ (l + 4)) (BitVec w), (∀ i t, NearNoise σ (n i t)) ∧
        pk = Tfhe.genGLWEPublicKey sk mask (fun _ => 0) n) := by
  have := Always.loop (fun (pk : Fin k → Fin (k + 1) → Poly (2 ^ (l + 4)) (BitVec w)) i => do
      let ct ← encryptGLWEBody F M signed e σ (old i) (fwdFFTKey F e old' sk) (mask i) (pk i 0)
      pure (Function.update pk i ct))
    (fun i (s c : Fin (k + 1) → Poly (2 ^ (l + 4)) (BitVec w)) => ∃ n : Poly (2 ^ (l + 4)) (BitVec w), (∀ t, NearNoise σ (n t)) ∧
      c = Tfhe.encryptGLWEBody sk (mask i) 0 n (s 0))
    (List.finRange k) (List.nodup_finRange k)
    (fun s i _ => Always.bind (always_encryptGLWEBody hF hN he hw hw64 hl signed hM h0 hσ _ _ _ _ hs _)
      fun c hc => Always.ret ⟨c, hc, rfl⟩) 0
  refine this.mono fun pk h => ?_
  choose n hn hpk using fun i => (h i).1 (List.mem_finRange i)
  exact ⟨n, hn, funext fun i => hpk i⟩

/-- The LWE part of `GenPublicKey`. -/
theorem always_genLWEPublicKey {M : Libm} (hM : GoodLibm M) {σ : ℝ} (h0 : 1 / 16 ≤ σ) (hσ : 8.074 * σ + 1 / 2 < 2 ^ 63)
    (old : Fin k → Fin k → ℕ → ℝ) (old' : Fin k → ℕ → ℝ) (sk : Fin k → Poly (2 ^ (l + 4)) (BitVec w))
    (mask : Fin k → Fin k → Poly (2 ^ (l + 4)) (BitVec w)) (hs : ∀ i t, |(sk i t).toInt| ≤ 2 ^ 8) :
    Always M (genLWEPublicKey F M signed e σ old (fwdFFTKey F e old' fun i => revPoly (sk i)) mask)
      (fun pk => ∃ n : Fin k → Poly (2 ^ (l + 4)) (BitVec w), (∀ i t, NearNoise σ (n i t)) ∧
        pk = Tfhe.genLWEPublicKey sk mask (fun _ _ => 0) n) := by
  have := Always.loop (fun (pk : Fin k → Fin (k + 1) → Poly (2 ^ (l + 4)) (BitVec w)) i => do
      let body ← setNoise M σ (pk i 0)
      let body ← Enc.ofPanic ((List.finRange k).foldlM (fun b j => mulSub F signed e (old i j) b (mask i j)
        (fwdFFTKey F e old' (fun i => revPoly (sk i)) j)) body)
      pure (Function.update pk i (Fin.cons body (mask i))))
    (fun i (_ c : Fin (k + 1) → Poly (2 ^ (l + 4)) (BitVec w)) => ∃ n : Poly (2 ^ (l + 4)) (BitVec w), (∀ t, NearNoise σ (n t)) ∧
      c = Fin.cons (Fin.foldl k (fun b j => b - (mask i j * revPoly (sk j) + 0)) n) (mask i))
    (List.finRange k) (List.nodup_finRange k) (fun s i _ => by
      refine Always.bind (always_setNoise hM hw64 h0 hσ _) fun n hn => ?_
      refine Always.bind (Q := fun b => b = (List.finRange k).foldl (fun b j => b - mask i j * revPoly (sk j)) n)
        (Always.ofPanic (foldlM_some _ _ _ (fun b j => mulSub_eq hF hN he hw hw64 hl signed _ _ _ _ _
          (fun t => hs j t.rev)) n) rfl) ?_
      rintro _ rfl
      refine Always.ret ⟨_, ⟨n, hn, ?_⟩, rfl⟩
      simp only [Fin.foldl_eq_finRange_foldl, add_zero]) 0
  refine this.mono fun pk h => ?_
  choose n hn hpk using fun i => (h i).1 (List.mem_finRange i)
  exact ⟨n, hn, funext fun i => hpk i⟩

/-- `PublicEncryptor.EncryptLWEPlaintextTo`: the exact encryption with bounded noise. -/
theorem always_pubEncryptLWE {M : Libm} (hM : GoodLibm M) {σ : ℝ} (h0 : 1 / 16 ≤ σ) (hσ : 8.074 * σ + 1 / 2 < 2 ^ 63)
    (oldKey : Fin k → ℕ → ℝ) (old : Fin k → Fin k → ℕ → ℝ) (pk : Fin k → Fin (k + 1) → Poly (2 ^ (l + 4)) (BitVec w))
    (r : Fin k → Poly (2 ^ (l + 4)) (BitVec w)) (hr : ∀ i t, |(r i t).toInt| ≤ 2 ^ 8) (ct : ℕ → BitVec w) (pt : BitVec w) :
    Always M (pubEncryptLWE F M signed e σ oldKey old pk r ct pt)
      (fun c => ∃ (n0 : BitVec w) (n : Fin k → Poly (2 ^ (l + 4)) (BitVec w)), NearNoise σ n0 ∧ (∀ i t, NearNoise σ (n i t)) ∧
        c = pubEncryptLWEPlaintextTo pk r n0 n (fun _ _ => 0) ct pt) := by
  refine Always.bind (always_sample hM hw64 h0 hσ) fun n0 hn0 => ?_
  refine Always.bind (Always.ofPanic (foldlM_some _ (fun ct i => (List.finRange k).foldl (fun ct (j : Fin k) =>
      writePoly (1 + j * 2 ^ (l + 4)) (readPoly (2 ^ (l + 4)) (1 + j * 2 ^ (l + 4)) ct + pk i j.succ * revPoly (r i)) ct) ct) _
      (fun ct i => foldlM_some _ _ _ (fun ct j => ?_) ct) _) (Q := fun c => c = _) rfl) ?_
  · have := mulAdd_eq hF hN he hw hw64 hl signed (old i j) (oldKey i) (readPoly (2 ^ (l + 4)) (1 + j * 2 ^ (l + 4)) ct) (pk i j.succ)
      (revPoly (r i)) (fun t => hr i t.rev)
    exact congrArg (Option.map _) this
  · rintro _ rfl
    have key : ∀ (js : List (Fin k)), js.Nodup → ∀ ct : ℕ → BitVec w,
        Always M (js.foldlM (fun ct (j : Fin k) => do
          let p ← addNoise M σ (readPoly (2 ^ (l + 4)) (1 + j * 2 ^ (l + 4)) ct)
          pure (writePoly (1 + j * 2 ^ (l + 4)) p ct)) ct)
        (fun c => ∃ n : Fin k → Poly (2 ^ (l + 4)) (BitVec w), (∀ i t, NearNoise σ (n i t)) ∧
          c = js.foldl (fun ct (j : Fin k) => writePoly (1 + j * 2 ^ (l + 4))
            (readPoly (2 ^ (l + 4)) (1 + j * 2 ^ (l + 4)) ct + n j) ct) ct) := by
      intro js hjs
      induction js with
      | nil =>
        intro ct
        refine Always.ret ⟨fun _ => 0, fun _ _ => ⟨0, ⟨0, by simp, by simp; linarith⟩, rfl⟩, rfl⟩
      | cons j js ih =>
        intro ct
        obtain ⟨hj, hjs⟩ := List.nodup_cons.mp hjs
        rw [List.foldlM_cons]
        refine Always.bind (Always.bind (always_addNoise hM hw64 h0 hσ _)
          (R := fun c => ∃ n : Poly (2 ^ (l + 4)) (BitVec w), (∀ t, NearNoise σ (n t)) ∧ c = writePoly (1 + j * 2 ^ (l + 4))
            (readPoly (2 ^ (l + 4)) (1 + j * 2 ^ (l + 4)) ct + n) ct) ?_) ?_
        · rintro _ ⟨n, hn, rfl⟩
          exact Always.ret ⟨n, hn, rfl⟩
        · rintro _ ⟨n, hn, rfl⟩
          refine (ih hjs _).mono ?_
          rintro _ ⟨n', hn', rfl⟩
          refine ⟨Function.update n' j n, fun i t => ?_, ?_⟩
          · by_cases hij : i = j
            · subst hij; rw [Function.update_self]; exact hn t
            · rw [Function.update_of_ne hij]; exact hn' i t
          · rw [List.foldl_cons, Function.update_self]
            refine List.foldl_ext _ _ _ fun c i hi => ?_
            have hne : i ≠ j := by rintro rfl; exact hj hi
            rw [Function.update_of_ne hne]
    refine (key _ (List.nodup_finRange k) _).mono ?_
    rintro _ ⟨n, hn, rfl⟩
    refine ⟨n0, n, hn0, hn, ?_⟩
    unfold pubEncryptLWEPlaintextTo pubEncryptLWEBody
    simp only [Fin.foldl_eq_finRange_foldl, add_zero]

/-- `PublicEncryptor.EncryptGLWEPlaintextTo`: the exact encryption with bounded noise. -/
theorem always_pubEncryptGLWE {M : Libm} (hM : GoodLibm M) {σ : ℝ} (h0 : 1 / 16 ≤ σ) (hσ : 8.074 * σ + 1 / 2 < 2 ^ 63)
    (oldKey : Fin (k + 1) → ℕ → ℝ) (old : Fin (k + 1) → Fin (k + 2) → ℕ → ℝ)
    (pk : Fin (k + 1) → Fin (k + 2) → Poly (2 ^ (l + 4)) (BitVec w)) (r : Fin (k + 1) → Poly (2 ^ (l + 4)) (BitVec w))
    (hr : ∀ i t, |(r i t).toInt| ≤ 2 ^ 8) (ct : Fin (k + 2) → Poly (2 ^ (l + 4)) (BitVec w)) (pt : Poly (2 ^ (l + 4)) (BitVec w)) :
    Always M (pubEncryptGLWE F M signed e σ oldKey old pk r ct pt)
      (fun c => ∃ n : Fin (k + 2) → Poly (2 ^ (l + 4)) (BitVec w), (∀ i t, NearNoise σ (n i t)) ∧
        c = pubEncryptGLWEPlaintextTo pk r n (fun _ _ => 0) ct pt) := by
  have row (i : Fin (k + 1)) (ct : Fin (k + 2) → Poly (2 ^ (l + 4)) (BitVec w)) (j : Fin (k + 2)) :
      (mulAdd F signed e (old i j) (ct j) (pk i j) (fwdFFTKey F e oldKey r i)).map (Function.update ct j) =
        some (Function.update ct j (ct j + (pk i j * r i + 0))) := by
    have := mulAdd_eq hF hN he hw hw64 hl signed (old i j) (oldKey i) (ct j) (pk i j) (r i) (hr i)
    rw [add_zero]
    exact congrArg (Option.map _) this
  refine Always.bind (Always.ofPanic (row 0 _ 0) (Q := fun c => c = _) rfl) ?_
  rintro _ rfl
  refine Always.bind (Always.ofPanic (foldlM_some _ _ _ (fun ct (j : Fin (k + 1)) => row 0 ct j.succ) _) (Q := fun c => c = _) rfl) ?_
  rintro _ rfl
  refine Always.bind (Always.ofPanic (foldlM_some _ _ _ (fun ct (i : Fin k) => foldlM_some _ _ _
    (fun ct (j : Fin (k + 2)) => row i.succ ct j) ct) _) (Q := fun c => c = _) rfl) ?_
  rintro _ rfl
  have := Always.loop (fun (ct : Fin (k + 2) → Poly (2 ^ (l + 4)) (BitVec w)) j => do
      let p ← addNoise M σ (ct j)
      pure (Function.update ct j p))
    (fun _ s c => ∃ n : Poly (2 ^ (l + 4)) (BitVec w), (∀ t, NearNoise σ (n t)) ∧ c = s + n)
    (List.finRange (k + 2)) (List.nodup_finRange _)
    (fun s i _ => Always.bind (always_addNoise hM hw64 h0 hσ _) fun c hc => Always.ret ⟨c, hc, rfl⟩)
  refine (this _).mono fun c h => ?_
  choose n hn hc using fun i => (h i).1 (List.mem_finRange i)
  refine ⟨n, hn, ?_⟩
  unfold pubEncryptGLWEPlaintextTo pubEncryptGLWEBody
  simp only
  rw [foldl_update_all]
  funext i
  rw [hc i]
  simp only [Fin.foldl_eq_finRange_foldl]
  rfl
end
end Tfhe.Enc
