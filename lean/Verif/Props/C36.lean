import Verif.Props.C35
import Verif.Props.C09

/-!
# C36: BFV permutation applies the automorphism to the message
-/
namespace Tfhe
open Bfv Finset
variable {w N n : ℕ} [NeZero N]

local notation "Pl" => Poly N (BitVec w)

theorem odd_of_and_one (d : BitVec 64) (h : d &&& 1 ≠ 0) : d.toInt % 2 = 1 := by
  have := mt (odd_toInt d).2 h
  omega

/-- `key` is a Galois key for `d`: its component `i` is a GLev encryption of `s_i(X^d)`, with noise `e i`. -/
def IsGalKey (s : Fin (n + 1) → Pl) (d : BitVec 64) (key : GalKey w N n) (e : Fin (n + 1) → ℕ → Pl) : Prop :=
  ∀ i, IsLev (polyGadget N key.g) s (Poly.subst d.toInt (s i)) (key.val i) (e i)

/-- What `PermuteTo` adds to the phase; `c` is the permuted input. -/
def permNoise (s : Fin (n + 1) → Pl) (d : BitVec 64) (key : GalKey w N n) (e : Fin (n + 1) → ℕ → Pl)
    (err c : Fin (n + 1 + 1) → Pl) : Pl :=
  ∑ i : Fin (n + 1), (polyGadget N key.g).eps (c i.succ) * Poly.subst d.toInt (s i)
    + ∑ i : Fin (n + 1), ∑ j ∈ range key.g.level, (polyGadget N key.g).dec (c i.succ) j * e i j + phase s err

/-- **C36.** `PermuteTo` with a Galois key for an odd `d`, whatever output and buffers held before, also with the
output over the input: the phase of the result is the phase of the input with `X` replaced by `X^d`, up to
explicit noise; only the output and the buffer change. -/
theorem C36_permute (gk : GalKeys w N n) (s : Fin (n + 1) → Pl) (out ct pb : ℕ) (hpb : pb ≠ ct)
    (d : BitVec 64) (hd : d &&& 1 ≠ 0) (key : GalKey w N n) (hkey : gk d = some key) (hg : key.g.Valid)
    (e : Fin (n + 1) → ℕ → Pl) (hk : IsGalKey s d key e) (err : Fin (n + 1 + 1) → Pl) (m : Mem Pl) :
    ∃ m', permuteTo gk out ct pb d err m = some m' ∧
      phase s (ctOf (n + 1) m' out) = Poly.subst d.toInt (phase s (ctOf (n + 1) m ct))
        + permNoise s d key e err (fun i => Poly.subst d.toInt (ctOf (n + 1) m ct i)) ∧
      (∀ v i, v ≠ out → v ≠ pb → m' v i = m v i) := by
  have hodd := odd_of_and_one d hd
  obtain ⟨h1, h2⟩ := mapLoopI_whole (fun _ _ a _ => Poly.subst d.toInt a) (n + 1) pb ct ct m
  refine ⟨_, by rw [permuteTo, if_neg hd, exactMapGLWETo, if_neg hpb, hkey]; rfl, ?_, ?_⟩
  · rw [keySwitch_phase (polyGadget N key.g) hg.level_pos (n + 1) out s (fun i => Poly.subst d.toInt (s i)) key.val e hk,
      h1]
    have h3 := phase_map (Poly.substHom N (BitVec w) d.toInt hodd) s (ctOf (n + 1) m ct)
    have h3' : phase (fun i => Poly.subst d.toInt (s i)) (fun i => Poly.subst d.toInt (ctOf (n + 1) m ct i))
        = Poly.subst d.toInt (phase s (ctOf (n + 1) m ct)) := h3
    unfold permNoise
    rw [← h3']
    simp only [add_assoc]
    rfl
  · intro v i hv hv'
    beta_reduce
    rw [(keySwitchTo_ct (polyGadget N key.g) hg.level_pos (n + 1) out key.val pb err _).2 v i (Or.inl hv)]
    exact h2 v i (Or.inl hv')

/-- A missing key or an even degree panics; nothing else does. -/
theorem C36_permute_panics (gk : GalKeys w N n) (out ct pb : ℕ) (hpb : pb ≠ ct) (d : BitVec 64)
    (err : Fin (n + 1 + 1) → Pl) (m : Mem Pl) :
    permuteTo gk out ct pb d err m = none ↔ (d &&& 1 = 0 ∨ gk d = none) := by
  unfold permuteTo
  by_cases hd : d &&& 1 = 0
  · rw [if_pos hd]; exact ⟨fun _ => Or.inl hd, fun _ => rfl⟩
  · rw [if_neg hd, exactMapGLWETo, if_neg hpb]
    show (gk d).map _ = none ↔ _
    rw [Option.map_eq_none_iff]
    exact ⟨Or.inr, fun h => h.resolve_left hd⟩

theorem genGaloisKeys_step (g : GadgetParams w) (s : Fin (n + 1) → Pl)
    (ρ : ℕ → KeyRand Pl (n + 1) (n + 1)) (l : List (BitVec 64 × ℕ)) (hl : ∀ x ∈ l, x.1 &&& 1 ≠ 0)
    (gk0 : GalKeys w N n) :
    ∃ gk : GalKeys w N n, l.foldlM (fun (gk : GalKeys w N n) dt =>
        if dt.1 &&& 1 = 0 then none
        else some (Function.update gk dt.1 (some ⟨g, genGLWEKeySwitchKey g s (ρ dt.2).mask (ρ dt.2).err (ρ dt.2).noise
          (fun i => Poly.subst dt.1.toInt (s i))⟩))) gk0 = some gk ∧
      (∀ d, d ∉ l.map Prod.fst → gk d = gk0 d) ∧
      (∀ d, d ∈ l.map Prod.fst → ∃ t, (d, t) ∈ l ∧ gk d = some ⟨g, genGLWEKeySwitchKey g s (ρ t).mask (ρ t).err
          (ρ t).noise (fun i => Poly.subst d.toInt (s i))⟩) := by
  induction l generalizing gk0 with
  | nil => exact ⟨gk0, rfl, fun _ _ => rfl, fun d hd => by simp at hd⟩
  | cons x l ih =>
    have hx := hl x (List.mem_cons_self ..)
    obtain ⟨gk, h1, h2, h3⟩ := ih (fun y hy => hl y (List.mem_cons_of_mem _ hy)) (Function.update gk0 x.1
      (some ⟨g, genGLWEKeySwitchKey g s (ρ x.2).mask (ρ x.2).err (ρ x.2).noise
          (fun i => Poly.subst x.1.toInt (s i))⟩))
    refine ⟨gk, ?_, ?_, ?_⟩
    · rw [List.foldlM_cons, if_neg hx]; exact h1
    · intro d hd
      simp only [List.map_cons, List.mem_cons, not_or] at hd
      rw [h2 d hd.2, Function.update_of_ne hd.1]
    · intro d hd
      by_cases hdl : d ∈ l.map Prod.fst
      · obtain ⟨t, ht, he⟩ := h3 d hdl
        exact ⟨t, List.mem_cons_of_mem _ ht, he⟩
      · have : d = x.1 := by simpa [hdl] using hd
        subst this
        exact ⟨x.2, List.mem_cons_self .., by rw [h2 _ hdl, Function.update_self]⟩

/-- **C36 (key generation).** For any list of odd degrees, in any order and with repetitions, every listed degree
gets a Galois key, its noise being that of one of the iterations; other entries of the map are kept. -/
theorem C36_genGaloisKeysTo (g : GadgetParams w) (s : Fin (n + 1) → Pl) (ρ : ℕ → KeyRand Pl (n + 1) (n + 1))
    (idx : List (BitVec 64)) (hidx : ∀ d ∈ idx, d &&& 1 ≠ 0) (gk0 : GalKeys w N n) :
    ∃ gk, genGaloisKeysTo g s ρ idx gk0 = some gk ∧ (∀ d, d ∉ idx → gk d = gk0 d) ∧
      ∀ d ∈ idx, ∃ key, gk d = some key ∧ key.g = g ∧ ∃ t, idx[t]? = some d ∧
        IsGalKey s d key (fun i j => (ρ t).noise i j - ∑ l, (ρ t).err i j l) := by
  obtain ⟨gk, h1, h2, h3⟩ := genGaloisKeys_step g s ρ idx.zipIdx
    (fun x hx => hidx _ (List.fst_mem_of_mem_zipIdx hx)) gk0
  have hm : idx.zipIdx.map Prod.fst = idx := by simp
  rw [hm] at h2 h3
  refine ⟨gk, h1, h2, fun d hd => ?_⟩
  obtain ⟨t, ht, he⟩ := h3 d hd
  exact ⟨_, he, rfl, t, (List.mk_mem_zipIdx_iff_getElem?).1 ht, fun i => isLev_encryptGLev g s _ _ _ _⟩

/-- The same for `GenGaloisKeys`, whose map has no other entries. -/
theorem C36_genGaloisKeys (g : GadgetParams w) (s : Fin (n + 1) → Pl) (ρ : ℕ → KeyRand Pl (n + 1) (n + 1))
    (idx : List (BitVec 64)) (hidx : ∀ d ∈ idx, d &&& 1 ≠ 0) :
    ∃ gk, genGaloisKeys g s ρ idx = some gk ∧ (∀ d, d ∉ idx → gk d = none) ∧
      ∀ d ∈ idx, ∃ key, gk d = some key ∧ key.g = g ∧ ∃ t, idx[t]? = some d ∧
        IsGalKey s d key (fun i j => (ρ t).noise i j - ∑ l, (ρ t).err i j l) :=
  C36_genGaloisKeysTo g s ρ idx hidx (fun _ => none)

/-- An even degree in the list panics. -/
theorem C36_genGaloisKeysTo_even (g : GadgetParams w) (s : Fin (n + 1) → Pl) (ρ : ℕ → KeyRand Pl (n + 1) (n + 1))
    (idx : List (BitVec 64)) (d : BitVec 64) (hd : d ∈ idx) (he : d &&& 1 = 0) (gk0 : GalKeys w N n) :
    genGaloisKeysTo g s ρ idx gk0 = none := by
  unfold genGaloisKeysTo
  have : ∃ x ∈ idx.zipIdx, x.1 &&& 1 = 0 := by
    obtain ⟨i, hi⟩ := List.mem_iff_getElem?.1 hd
    exact ⟨(d, i), List.mk_mem_zipIdx_iff_getElem?.2 hi, he⟩
  generalize idx.zipIdx = l at this
  induction l generalizing gk0 with
  | nil => simp at this
  | cons x l ih =>
    rw [List.foldlM_cons]
    by_cases hx : x.1 &&& 1 = 0
    · rw [if_pos hx]; rfl
    · rw [if_neg hx]
      exact ih _ (by
        obtain ⟨y, hy, hy'⟩ := this
        rcases List.mem_cons.1 hy with rfl | h
        · exact absurd hy' hx
        · exact ⟨y, h, hy'⟩)

/-- Replacing `X` by `X^d` does not make a polynomial larger. -/
theorem pabs_subst_le (logN : ℕ) (hN : N = 2 ^ logN) (d : ℤ) (hd : d % 2 = 1) (p : Pl) :
    pabs (Poly.subst d p) ≤ pabs p := by
  obtain ⟨a, b, hab⟩ := coprime_of_odd logN hN d hd
  rw [pabs_le_iff]
  intro i
  have h1 : Poly.subst d p i = Poly.at' p (a * i) := by
    rw [← Poly.at_subst d hd (coprime_of_odd logN hN d hd)]
    refine (Poly.at_coe (Poly.subst d p) i).symm.trans ?_
    have : (i : ℤ) = d * (a * i) + 2 * N * (b * i) := by linear_combination (-(i : ℤ)) * hab
    conv_lhs => rw [this]
    exact Poly.at_add_two_N_mul _ _ _
  rw [h1]
  exact wabs_at_le p _

theorem pabs_mul_subst_binary (logN : ℕ) (hN : N = 2 ^ logN) (d : ℤ) (hd : d % 2 = 1) (s : Pl)
    (hbin : ∀ i, s i = 0 ∨ s i = 1) (x : Pl) : pabs (x * Poly.subst d s) ≤ N * pabs x := by
  have h1 : pabs s ≤ 1 := by
    rw [pabs_le_iff]
    intro i
    have := wabs_cast_le (w := w) 1
    rcases hbin i with h | h <;> rw [h]
    · rw [wabs_zero]; exact Nat.zero_le _
    · simpa using this
  refine ((polyNorm N w).mul_le x _).trans (Nat.mul_le_mul_left _ ?_)
  calc _ ≤ pabs x * 1 := Nat.mul_le_mul_left _ ((pabs_subst_le logN hN d hd s).trans h1)
    _ = _ := mul_one _

/-- The noise of a permutation. -/
theorem C36_permNoise_le (s : Fin (n + 1) → Pl) (d : BitVec 64) (key : GalKey w N n) (hg : key.g.Valid)
    (e : Fin (n + 1) → ℕ → Pl) (err c : Fin (n + 1 + 1) → Pl) (S B F : ℕ)
    (hS : ∀ i x, pabs (x * Poly.subst d.toInt (s i)) ≤ S * pabs x)
    (hB : ∀ i j, j < key.g.level → pabs (e i j) ≤ B) (hF : pabs (phase s err) ≤ F) :
    pabs (permNoise s d key e err c) ≤ (n + 1) * (S * (2 ^ (w - key.g.level * key.g.logBase) / 2))
      + (n + 1) * (key.g.level * (N * (key.g.base.toNat / 2 * B))) + F := by
  have hG := polyGadget_bounded (N := N) key.g hg
  refine (pabs_add_le _ _).trans (Nat.add_le_add ((pabs_add_le _ _).trans (Nat.add_le_add ?_ ?_)) hF)
  · have h := (polyNorm N w).sum_le_card Finset.univ
      (fun i : Fin (n + 1) => (polyGadget N key.g).eps (c i.succ) * Poly.subst d.toInt (s i)) _
      (fun i _ => (hS i _).trans (Nat.mul_le_mul_left _ (hG.eps_le _)))
    rwa [Finset.card_fin] at h
  · exact noise_le (polyGadget N key.g) (polyNorm N w) hG (fun i : Fin (n + 1) => c i.succ) e B hB

/-- **C36 (all together).** For a binary key, keys generated for any list of odd degrees, and any degree in the
list: `PermuteTo` succeeds and the phase of its output is that of the input with `X` replaced by `X^d`, up to
`(n+1)·(N·loss + level·N·base/2·B) + F`, where `B` bounds the noise of the samples and `F` the FFT error. -/
theorem C36_bound (logN : ℕ) (hN : N = 2 ^ logN) (g : GadgetParams w) (hg : g.Valid) (s : Fin (n + 1) → Pl)
    (hbin : ∀ i j, s i j = 0 ∨ s i j = 1) (ρ : ℕ → KeyRand Pl (n + 1) (n + 1))
    (idx : List (BitVec 64)) (hidx : ∀ d ∈ idx, d &&& 1 ≠ 0) (gk : GalKeys w N n)
    (hgk : genGaloisKeys g s ρ idx = some gk) (d : BitVec 64) (hd : d ∈ idx) (out ct pb : ℕ) (hpb : pb ≠ ct)
    (err : Fin (n + 1 + 1) → Pl) (m : Mem Pl) (B F : ℕ)
    (hB : ∀ t i j, pabs ((ρ t).noise i j - ∑ l, (ρ t).err i j l) ≤ B) (hF : pabs (phase s err) ≤ F) :
    ∃ m', permuteTo gk out ct pb d err m = some m' ∧
      pabs (phase s (ctOf (n + 1) m' out) - Poly.subst d.toInt (phase s (ctOf (n + 1) m ct)))
        ≤ (n + 1) * (N * (2 ^ (w - g.level * g.logBase) / 2))
          + (n + 1) * (g.level * (N * (g.base.toNat / 2 * B))) + F ∧
      (∀ v i, v ≠ out → v ≠ pb → m' v i = m v i) := by
  obtain ⟨gk', h1, -, h3⟩ := C36_genGaloisKeys g s ρ idx hidx
  obtain rfl : gk' = gk := Option.some_injective _ (h1.symm.trans hgk)
  obtain ⟨key, hk1, rfl, t, -, hk2⟩ := h3 d hd
  obtain ⟨m', e1, e2, e3⟩ := C36_permute gk' s out ct pb hpb d (hidx d hd) key hk1 hg _ hk2 err m
  refine ⟨m', e1, ?_, e3⟩
  rw [e2, add_sub_cancel_left]
  exact C36_permNoise_le s d key hg _ err _ N B F
    (fun i x => pabs_mul_subst_binary logN hN _ (odd_of_and_one d (hidx d hd)) _ (hbin i) x) (fun i j _ => hB t i j) hF

theorem one_binary (j : Fin N) : (1 : Pl) j = 0 ∨ (1 : Pl) j = 1 := by
  rw [show (1 : Pl) j = if (j : ℕ) = 0 then 1 else 0 from rfl]
  split
  · exact Or.inr rfl
  · exact Or.inl rfl

/-- Non-trivial instance: a nonzero key, degrees `5, -1, 5`, permutation by `-1` in place, any contents. -/
example (logN : ℕ) (hN : N = 2 ^ logN) (g : GadgetParams w) (hg : g.Valid) (ρ : ℕ → KeyRand Pl 1 1)
    (hρ : ∀ t i j, (ρ t).noise i j = 0 ∧ ∀ l, (ρ t).err i j l = 0) (m : Mem Pl) :
    ∃ gk m', genGaloisKeys (n := 0) g (fun _ => 1) ρ [5#64, -1#64, 5#64] = some gk ∧
      permuteTo gk 0 0 1 (-1#64) (fun _ => 0) m = some m' ∧
      pabs (phase (fun _ : Fin 1 => 1) (ctOf 1 m' 0)
        - Poly.subst (-1#64).toInt (phase (fun _ : Fin 1 => 1) (ctOf 1 m 0)))
        ≤ (0 + 1) * (N * (2 ^ (w - g.level * g.logBase) / 2))
          + (0 + 1) * (g.level * (N * (g.base.toNat / 2 * 0))) + 0 := by
  have hidx : ∀ d ∈ [5#64, -1#64, 5#64], d &&& 1 ≠ 0 := by
    intro d hd
    simp only [List.mem_cons, List.not_mem_nil, or_false] at hd
    rcases hd with rfl | rfl | rfl <;> decide
  obtain ⟨gk, h1, -⟩ := C36_genGaloisKeys (n := 0) g (fun _ => (1 : Pl)) ρ [5#64, -1#64, 5#64] hidx
  obtain ⟨m', h2, h3, -⟩ := C36_bound (n := 0) logN hN g hg (fun _ => (1 : Pl)) (fun _ => one_binary) ρ
    [5#64, -1#64, 5#64] hidx gk h1 (-1#64) (List.mem_cons_of_mem _ (List.mem_cons_self ..)) 0 0 1 (by decide)
    (fun _ => 0) m 0 0 (fun t i j => by
      rw [(hρ t i j).1, Finset.sum_eq_zero (fun l _ => (hρ t i j).2 l), sub_zero]
      exact (polyNorm N w).zero.le) (by
      have : phase (fun _ : Fin 1 => (1 : Pl)) (fun _ => 0) = 0 := by simp [phase]
      rw [this]; exact (polyNorm N w).zero.le)
  exact ⟨gk, m', h1, h2, h3⟩
end Tfhe
