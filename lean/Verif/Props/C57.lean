import Verif.Lemma.ProdNear
import Verif.Props.C20

/-!
# C57: products, key switching and bootstrapping in floating-point arithmetic

Every function that works in the Fourier domain computes, with every operation rounded, what the exact model computes with an error
polynomial whose size is bounded.  The exact models leave the error open; their theorems (C12, C13, C14, C20) then apply.
-/
namespace Tfhe
open Fft Poly

/-! ## Specification -/

/-- Accumulated terms of one block of blind rotation. -/
def rotTerms (k level bs : ℕ) : ℕ := 2 * ((k + 1) * level) * bs
/-- Operations on the way. -/
def rotOps (k level bs : ℕ) : ℕ := (k + 1) * level + 2 * bs
/-- The bound on the error of one block of blind rotation. -/
def rotErr (l w D k level bs : ℕ) : ℕ := fftErr l w D (rotTerms k level bs) (rotOps k level bs)

/-- Polynomials. -/
abbrev PP (l w : ℕ) := Poly (2 ^ (l + 4)) (BitVec w)

/-! ## Loops -/

theorem foldl_rel {α β ι : Type} (R : ℕ → α → β → Prop) (f : α → ι → α) (g : β → ι → β) (L : List ι)
    (step : ∀ i ∈ L, ∀ n a b, R n a b → R (n + 1) (f a i) (g b i)) (n : ℕ) (a : α) (b : β) (h : R n a b) :
    R (n + L.length) (L.foldl f a) (L.foldl g b) := by
  induction L generalizing n a b with
  | nil => exact h
  | cons i L ih =>
    have := ih (fun j hj => step j (List.mem_cons_of_mem _ hj)) (n + 1) _ _ (step i List.mem_cons_self n a b h)
    rwa [List.length_cons, List.foldl_cons, List.foldl_cons, show n + (L.length + 1) = n + 1 + L.length by ring]

/-- A loop whose steps are those of another loop with some choice in every step. -/
theorem foldl_choice {α ε ι : Type} [DecidableEq ι] (ok : ε → Prop) (f : α → ι → α) (g : α → ι → ε → α)
    (h : ∀ a i, ∃ e, ok e ∧ f a i = g a i e) (L : List ι) (hL : L.Nodup) :
    ∀ (a : α) (e0 : ι → ε), (∀ i, ok (e0 i)) → ∃ err : ι → ε, (∀ i, ok (err i)) ∧ (∀ i, i ∉ L → err i = e0 i) ∧
      L.foldl f a = L.foldl (fun acc i => g acc i (err i)) a := by
  induction L with
  | nil => intro a e0 h0; exact ⟨e0, h0, fun _ _ => rfl, rfl⟩
  | cons i L ih =>
    intro a e0 h0
    obtain ⟨hi, hL'⟩ := List.nodup_cons.1 hL
    obtain ⟨e, he, hf⟩ := h a i
    obtain ⟨err, h1, h2, h3⟩ := ih hL' (f a i) (Function.update e0 i e) (fun j => by
      by_cases hj : j = i
      · subst hj; rw [Function.update_self]; exact he
      · rw [Function.update_of_ne hj]; exact h0 j)
    refine ⟨err, h1, fun j hj => ?_, ?_⟩
    · rw [List.mem_cons, not_or] at hj
      rw [h2 j hj.2, Function.update_of_ne hj.1]
    · rw [List.foldl_cons, List.foldl_cons, h3, h2 i hi, Function.update_self, hf]

theorem pabs_zero_le {w N : ℕ} [NeZero N] (B : ℕ) : pabs (0 : Poly N (BitVec w)) ≤ B :=
  ((polyNorm N w).zero).le.trans (Nat.zero_le _)

/-! ## Products -/

section
variable {M : Machine} (hM : Ieee M) {l : ℕ} {R : BitVec 64} (hN : R.toInt = 2 ^ (l + 4)) {e : Eval ℝ}
  (he : newEvaluatorFl M.arith M.cis R = some e) {w D k : ℕ}

/-- All the components. -/
def APs (D T n : ℕ) (v : Fin (k + 1) → FPoly) (q : Fin (k + 1) → PP l w) : Prop := ∀ t, AP l w D T n (v t) (q t)

theorem APs.mono {T T' n n' : ℕ} {v : Fin (k + 1) → FPoly} {q : Fin (k + 1) → PP l w} (h : APs D T n v q) (hT : T ≤ T') (hn : n ≤ n') :
    APs D T' n' v q := fun t => (h t).mono hT hn

section
include hM hN he

theorem ap_gadgetProdAdd (level : ℕ) (lev : ℕ → Fin (k + 1) → PP l w) (d : ℕ → PP l w) (hd : ∀ j < level, pabs (d j) ≤ D) {T n : ℕ}
    (v : Fin (k + 1) → FPoly) (q : Fin (k + 1) → PP l w) (h : APs D T n v q) :
    APs D (T + level) (n + level) (gadgetProdAddF M e level v (fun j => fwdCt M e (lev j)) (fun j => fwdF M e (d j)))
      (gadgetProdAdd level q lev d) := by
  have := foldl_rel (fun i v q => APs D (T + i) (n + i) v q) (fun acc j => fctMulAdd M e acc (fwdF M e (d j)) (fwdCt M e (lev j)))
    (fun acc j => ctMulAdd acc (d j) (lev j)) (List.range level)
    (fun j hj i a b hab t => AP.mulAdd hM hN he _ _ _ _ _ _ (hab t) (keyed_fwd hM hN he _)
      (digit_fwd hM hN he _ (hd j (List.mem_range.1 hj)))) 0 v q h
  rwa [List.length_range, zero_add] at this

theorem ap_gadgetProd (level : ℕ) (hl : 0 < level) (lev : ℕ → Fin (k + 1) → PP l w) (d : ℕ → PP l w) (hd : ∀ j < level, pabs (d j) ≤ D) :
    APs D level level (gadgetProdF M e level (fun j => fwdCt M e (lev j)) (fun j => fwdF M e (d j))) (gadgetProd level lev d) := by
  have h0 : APs D 1 0 (fctMul M e (fwdF M e (d 0)) (fwdCt M e (lev 0))) (ctMul (d 0) (lev 0)) := fun t =>
    AP.mul hM hN he _ _ _ _ (keyed_fwd hM hN he _) (digit_fwd hM hN he _ (hd 0 hl))
  have := foldl_rel (fun i v q => APs D (1 + i) (0 + i) v q) (fun acc j => fctMulAdd M e acc (fwdF M e (d j)) (fwdCt M e (lev j)))
    (fun acc j => ctMulAdd acc (d j) (lev j)) (List.range' 1 (level - 1))
    (fun j hj i a b hab t => AP.mulAdd hM hN he _ _ _ _ _ _ (hab t) (keyed_fwd hM hN he _)
      (digit_fwd hM hN he _ (hd j (by rw [List.mem_range'_1] at hj; omega)))) 0 _ _ h0
  rw [List.length_range'] at this
  exact this.mono (by omega) (by omega)

/-- Row 0, then `n` more rows. -/
theorem ap_rows (level : ℕ) (hl : 0 < level) {n : ℕ} (ct : Fin (n + 1) → ℕ → Fin (k + 1) → PP l w) (d : Fin (n + 1) → ℕ → PP l w)
    (hd : ∀ i, ∀ j < level, pabs (d i j) ≤ D) :
    APs D ((n + 1) * level) ((n + 1) * level)
      (keySwitchAccF M e level (fun i j => fwdCt M e (ct i j)) (fun i j => fwdF M e (d i j))) (keySwitchAcc level ct d) := by
  unfold keySwitchAccF keySwitchAcc
  rw [Fin.foldl_eq_finRange_foldl, Fin.foldl_eq_finRange_foldl]
  have := foldl_rel (fun i v q => APs D (level + i * level) (level + i * level) v q)
    (fun acc (i : Fin n) => gadgetProdAddF M e level acc (fun j => fwdCt M e (ct i.succ j)) (fun j => fwdF M e (d i.succ j)))
    (fun acc i => gadgetProdAdd level acc (ct i.succ) (d i.succ)) (List.finRange n)
    (fun i _ m a b hab => (ap_gadgetProdAdd hM hN he level (ct i.succ) (d i.succ) (hd i.succ) _ _ hab).mono
      (le_of_eq (by ring)) (le_of_eq (by ring))) 0 _ _
    (by rw [zero_mul, add_zero]; exact ap_gadgetProd hM hN he level hl (ct 0) (d 0) (hd 0))
  rw [List.length_finRange, zero_add] at this
  exact this.mono (le_of_eq (by ring)) (le_of_eq (by ring))

theorem ap_extProd (level : ℕ) (hl : 0 < level) (ct : Fin (k + 1) → ℕ → Fin (k + 1) → PP l w) (d : Fin (k + 1) → ℕ → PP l w)
    (hd : ∀ i, ∀ j < level, pabs (d i j) ≤ D) :
    APs D ((k + 1) * level) ((k + 1) * level)
      (extProdF M e level (fun i j => fwdCt M e (ct i j)) (fun i j => fwdF M e (d i j))) (extProd level ct d) :=
  ap_rows hM hN he level hl ct d hd

variable (hw : 0 < w) (hw64 : w ≤ 64)
include hw hw64

theorem inv_all {T n : ℕ} (hn : (3 * (l + 3) + n + 4) * 1000 ≤ 2 ^ 46) (v : Fin (k + 1) → FPoly) (q : Fin (k + 1) → PP l w)
    (h : APs D T n v q) :
    ∃ err : Fin (k + 1) → PP l w, (∀ t, pabs (err t) ≤ fftErr l w D T n) ∧ ∀ t, invF M e w (2 ^ (l + 4)) (v t) = q t + err t := by
  choose err h1 h2 using fun t => AP.inv hM hN he hw hw64 hn (v t) (q t) (h t)
  exact ⟨err, h1, h2⟩

section
variable (G : Gadget (PP l w)) (hL : 0 < G.level) (hD : ∀ p, ∀ j < G.level, pabs (G.dec p j) ≤ D)
include hL hD

section
variable (hn : (3 * (l + 3) + G.level + 4) * 1000 ≤ 2 ^ 46) (lev : ℕ → Fin (k + 1) → PP l w) (p : PP l w) (out : Fin (k + 1) → PP l w)
include hn

theorem gadgetProd_inv : ∃ err : Fin (k + 1) → PP l w, (∀ t, pabs (err t) ≤ fftErr l w D G.level G.level) ∧
    ∀ t, invF M e w (2 ^ (l + 4)) (gadgetProdF M e G.level (fun j => fwdCt M e (lev j)) (decF M e G p) t) =
      gadgetProd G.level lev (G.dec p) t + err t :=
  inv_all hM hN he hw hw64 hn _ _ (ap_gadgetProd hM hN he G.level hL lev (G.dec p) (hD p))

/-- **C57.**  `GadgetProdGLWETo`: with every operation rounded, the exact product plus an error of bounded size. -/
theorem C57_gadgetProd : ∃ err : Fin (k + 1) → PP l w, (∀ t, pabs (err t) ≤ fftErr l w D G.level G.level) ∧
    gadgetProdGLWEF M e G (fun j => fwdCt M e (lev j)) p = gadgetProdGLWE G lev p err := by
  obtain ⟨err, h1, h2⟩ := gadgetProd_inv hM hN he hw hw64 G hL hD hn lev p
  exact ⟨err, h1, funext h2⟩

/-- **C57.**  `GadgetProdAddGLWETo`. -/
theorem C57_gadgetProdAdd : ∃ err : Fin (k + 1) → PP l w, (∀ t, pabs (err t) ≤ fftErr l w D G.level G.level) ∧
    gadgetProdAddGLWEF M e G out (fun j => fwdCt M e (lev j)) p = gadgetProdAddGLWE G out lev p err := by
  obtain ⟨err, h1, h2⟩ := gadgetProd_inv hM hN he hw hw64 G hL hD hn lev p
  exact ⟨err, h1, funext fun t => congrArg (out t + ·) (h2 t)⟩

/-- **C57.**  `GadgetProdSubGLWETo`. -/
theorem C57_gadgetProdSub : ∃ err : Fin (k + 1) → PP l w, (∀ t, pabs (err t) ≤ fftErr l w D G.level G.level) ∧
    gadgetProdSubGLWEF M e G out (fun j => fwdCt M e (lev j)) p = gadgetProdSubGLWE G out lev p err := by
  obtain ⟨err, h1, h2⟩ := gadgetProd_inv hM hN he hw hw64 G hL hD hn lev p
  exact ⟨err, h1, funext fun t => congrArg (out t - ·) (h2 t)⟩
end

section
variable (hn : (3 * (l + 3) + (k + 1) * G.level + 4) * 1000 ≤ 2 ^ 46) (gsw : Fin (k + 1) → ℕ → Fin (k + 1) → PP l w)
include hn

theorem extProd_inv (c : Fin (k + 1) → PP l w) :
    ∃ err : Fin (k + 1) → PP l w, (∀ t, pabs (err t) ≤ fftErr l w D ((k + 1) * G.level) ((k + 1) * G.level)) ∧
    (fun t => invF M e w (2 ^ (l + 4)) (extProdF M e G.level (fun i j => fwdCt M e (gsw i j)) (fun i => decF M e G (c i)) t)) =
      fun t => extProd G.level gsw (fun i => G.dec (c i)) t + err t := by
  obtain ⟨err, h1, h2⟩ := inv_all hM hN he hw hw64 hn _ _ (ap_extProd hM hN he G.level hL gsw (fun i => G.dec (c i)) (fun i => hD (c i)))
  exact ⟨err, h1, funext h2⟩

variable (o ct : ℕ) (m : Mem (PP l w))

/-- **C57.**  `ExternalProdGLWETo`. -/
theorem C57_externalProd :
    ∃ err : Fin (k + 1) → PP l w, (∀ t, pabs (err t) ≤ fftErr l w D ((k + 1) * G.level) ((k + 1) * G.level)) ∧
      externalProdToF M e G k o (fun i j => fwdCt M e (gsw i j)) ct m = externalProdTo G k o gsw ct err m := by
  obtain ⟨err, h1, h2⟩ := extProd_inv hM hN he hw hw64 G hL hD hn gsw (fun i => m ct i)
  refine ⟨err, h1, ?_⟩
  unfold externalProdToF externalProdTo
  simp only
  rw [h2]

/-- **C57.**  `ExternalProdAddGLWETo`. -/
theorem C57_externalProdAdd :
    ∃ err : Fin (k + 1) → PP l w, (∀ t, pabs (err t) ≤ fftErr l w D ((k + 1) * G.level) ((k + 1) * G.level)) ∧
      externalProdAddToF M e G k o (fun i j => fwdCt M e (gsw i j)) ct m = externalProdAddTo G k o gsw ct err m := by
  obtain ⟨err, h1, h2⟩ := extProd_inv hM hN he hw hw64 G hL hD hn gsw (fun i => m ct i)
  refine ⟨err, h1, ?_⟩
  unfold externalProdAddToF externalProdAddTo
  simp only
  rw [h2]

/-- **C57.**  `ExternalProdSubGLWETo`. -/
theorem C57_externalProdSub :
    ∃ err : Fin (k + 1) → PP l w, (∀ t, pabs (err t) ≤ fftErr l w D ((k + 1) * G.level) ((k + 1) * G.level)) ∧
      externalProdSubToF M e G k o (fun i j => fwdCt M e (gsw i j)) ct m = externalProdSubTo G k o gsw ct err m := by
  obtain ⟨err, h1, h2⟩ := extProd_inv hM hN he hw hw64 G hL hD hn gsw (fun i => m ct i)
  refine ⟨err, h1, ?_⟩
  unfold externalProdSubToF externalProdSubTo
  simp only
  rw [h2]

/-- **C57.**  `CMuxTo`. -/
theorem C57_cmux (ct1 buf : ℕ) :
    ∃ err : Fin (k + 1) → PP l w, (∀ t, pabs (err t) ≤ fftErr l w D ((k + 1) * G.level) ((k + 1) * G.level)) ∧
      cmuxToF M e G k o (fun i j => fwdCt M e (gsw i j)) ct ct1 buf m = cmuxTo G k o gsw ct ct1 buf err m :=
  C57_externalProdAdd hM hN he hw hw64 G hL hD hn gsw o buf _
end

/-- **C57.**  `KeySwitchGLWETo`, from a ciphertext with `n + 1` masks. -/
theorem C57_keySwitch {n : ℕ} (hn : (3 * (l + 3) + (n + 1) * G.level + 4) * 1000 ≤ 2 ^ 46)
    (ksk : Fin (n + 1) → ℕ → Fin (k + 1) → PP l w) (o ct : ℕ) (m : Mem (PP l w)) :
    ∃ err : Fin (k + 1) → PP l w, (∀ t, pabs (err t) ≤ fftErr l w D ((n + 1) * G.level) ((n + 1) * G.level)) ∧
      keySwitchToF M e G k o (fun i j => fwdCt M e (ksk i j)) ct m = keySwitchTo G k o ksk ct err m := by
  obtain ⟨err, h1, h2⟩ := inv_all hM hN he hw hw64 hn _ _
    (ap_rows hM hN he G.level hL ksk (fun i => G.dec (m ct (i + 1))) (fun i => hD (m ct (i + 1))))
  refine ⟨err, h1, ?_⟩
  have h3 := funext h2
  unfold keySwitchToF keySwitchTo
  simp only
  have h4 : (fun t => invF M e w (2 ^ (l + 4)) (keySwitchAccF M e G.level (fun i j => fwdCt M e (ksk i j))
      (fun i => decF M e G (m ct (i + 1))) t)) = _ := h3
  have h5 := congrFun h4 0
  beta_reduce at h5
  rw [h4, h5]

/-! ## Blind rotation -/

section
omit hw hw64 hL hD

theorem ap_first {T n : ℕ} (d : ℤ) (v : Fin (k + 1) → FPoly) (q : Fin (k + 1) → PP l w) (h : APs D T n v q) :
    APs D (2 * T) (n + 1) (fctMul M e (monoSubOneF M e d) v) (ctMul (monoSubOne _ w d) q) :=
  fun t => AP.table hM hN he (by norm_num) _ _ _ _ (h t) (table_monoSubOne hM hN he d)

theorem ap_next {T0 n0 T n : ℕ} (hn : n + 1 ≤ n0) (d : ℤ) (o v : Fin (k + 1) → FPoly) (p q : Fin (k + 1) → PP l w) (ho : APs D T0 n0 o p)
    (h : APs D T n v q) :
    APs D (T0 + 2 * T) (n0 + 1) (fctMulAdd M e o (monoSubOneF M e d) v) (ctMulAdd p (monoSubOne _ w d) q) :=
  fun t => (AP.tableAdd hM hN he (by norm_num) _ _ _ _ _ _ (ho t) (h t) (table_monoSubOne hM hN he d)).mono le_rfl
    (by rw [max_eq_left hn])

theorem ap_extTerm {T n : ℕ} (f a : ℕ) (blk : ℕ → Fin (k + 1) → FPoly) (q : ℕ → Fin (k + 1) → PP l w) (h : ∀ i, APs D T n (blk i) (q i))
    (i : ℕ) : APs D (2 * T) (n + 2) (extTermF M e f a blk i) (extTerm f a q i) := by
  have hs : ∀ (d : ℤ) (i i' : ℕ), APs D (2 * T) (n + 2) (fctSub M e (fctMul M e (monoF e d) (blk i)) (blk i'))
      (ctSub (ctMul (mono _ _ d) (q i)) (q i')) := fun d i i' t =>
    (AP.sub hM hN he _ _ _ _ (AP.table hM hN he le_rfl _ _ _ _ (h i t) (table_mono hM hN he d)) (h i' t)).mono
      (le_of_eq (by ring)) (by rw [max_eq_left (by omega)])
  unfold extTermF extTerm
  simp only
  split
  · exact (ap_first hM hN he _ _ _ (h i)).mono le_rfl (by omega)
  · split
    · exact hs _ _ _
    · exact hs _ _ _

theorem ap_extTermAdd {T0 n0 T n : ℕ} (hn : n + 1 ≤ n0) (f a : ℕ) (blk fa : ℕ → Fin (k + 1) → FPoly) (q p : ℕ → Fin (k + 1) → PP l w)
    (hf : ∀ i, APs D T0 n0 (fa i) (p i)) (h : ∀ i, APs D T n (blk i) (q i)) (i : ℕ) :
    APs D (T0 + 2 * T) (n0 + 2) (extTermAddF M e f a blk fa i) (extTermAdd f a q p i) := by
  have hs : ∀ (d : ℤ) (i i' i'' : ℕ), APs D (T0 + 2 * T) (n0 + 2) (fctSub M e (fctMulAdd M e (fa i'') (monoF e d) (blk i)) (blk i'))
      (ctSub (ctMulAdd (p i'') (mono _ _ d) (q i)) (q i')) := fun d i i' i'' t =>
    (AP.sub hM hN he _ _ _ _ (AP.tableAdd hM hN he le_rfl _ _ _ _ _ _ (hf i'' t) (h i t) (table_mono hM hN he d)) (h i' t)).mono
      (le_of_eq (by ring)) (by rw [max_eq_left hn, max_eq_left (by omega)])
  unfold extTermAddF extTermAdd
  simp only
  split
  · exact (ap_next hM hN he hn _ _ _ _ _ (hf i) (h i)).mono le_rfl (by omega)
  · split
    · exact hs _ _ _ _
    · exact hs _ _ _ _
end

/-- The keys in the Fourier domain. -/
noncomputable def fwdKey (M : Machine) (e : Eval ℝ) (brk : ℕ → Fin (k + 1) → ℕ → Fin (k + 1) → PP l w) :
    ℕ → Fin (k + 1) → ℕ → Fin (k + 1) → FPoly := fun i r j => fwdCt M e (brk i r j)

variable (bs : ℕ) (hbs : 0 < bs) (hn : (3 * (l + 3) + rotOps k G.level bs + 4) * 1000 ≤ 2 ^ 46)
  (brk : ℕ → Fin (k + 1) → ℕ → Fin (k + 1) → PP l w) (ct : ℕ → BitVec w)
include hbs hn

omit hM hN he hw hw64 hL hD hn in
theorem rotTerms_first (E : ℕ) (hE : E ≤ (k + 1) * G.level) : 2 * E + (bs - 1) * (2 * E) ≤ rotTerms k G.level bs := by
  unfold rotTerms
  obtain ⟨b, rfl⟩ : ∃ b, bs = b + 1 := ⟨bs - 1, by omega⟩
  rw [Nat.add_sub_cancel]
  nlinarith [Nat.mul_le_mul_left (b + 1) hE]

omit hL hD hbs in
/-- The conversion at the end of a block. -/
theorem rot_inv {T n : ℕ} (hT : T ≤ rotTerms k G.level bs) (hn' : n ≤ rotOps k G.level bs) (acc : Fin (k + 1) → PP l w)
    (v : Fin (k + 1) → FPoly) (q : Fin (k + 1) → PP l w) (h : APs D T n v q) :
    ∃ err : Fin (k + 1) → PP l w, (∀ t, pabs (err t) ≤ rotErr l w D k G.level bs) ∧ invAddF M e acc v = invFFTAdd acc q err := by
  obtain ⟨err, h1, h2⟩ := inv_all hM hN he hw hw64 hn v q (h.mono hT hn')
  exact ⟨err, h1, funext fun t => congrArg (acc t + ·) (h2 t)⟩

omit hL hD in
/-- The accumulation of a block of the ordinary algorithms, from any products. -/
theorem ap_block (E : ℕ) (hE : E ≤ (k + 1) * G.level) (j0 : ℕ) (prodF : ℕ → Fin (k + 1) → FPoly) (prod : ℕ → Fin (k + 1) → PP l w)
    (h : ∀ j, APs D E E (prodF j) (prod j)) (dg : ℕ → ℤ) (acc : Fin (k + 1) → PP l w) :
    ∃ err : Fin (k + 1) → PP l w, (∀ t, pabs (err t) ≤ rotErr l w D k G.level bs) ∧
      invAddF M e acc ((List.range' (j0 + 1) (bs - 1)).foldl (fun fa j => fctMulAdd M e fa (monoSubOneF M e (dg j)) (prodF j))
        (fctMul M e (monoSubOneF M e (dg j0)) (prodF j0))) =
      invFFTAdd acc ((List.range' (j0 + 1) (bs - 1)).foldl (fun fa j => ctMulAdd fa (monoSubOne _ w (dg j)) (prod j))
        (ctMul (monoSubOne _ w (dg j0)) (prod j0))) err := by
  have h1 := foldl_rel (fun i v q => APs D (2 * E + i * (2 * E)) (E + 1 + i) v q)
    (fun fa j => fctMulAdd M e fa (monoSubOneF M e (dg j)) (prodF j)) (fun fa j => ctMulAdd fa (monoSubOne _ w (dg j)) (prod j))
    (List.range' (j0 + 1) (bs - 1))
    (fun j _ i a b hab => (ap_next hM hN he (by omega) _ _ _ _ _ hab (h j)).mono (le_of_eq (by ring)) (le_of_eq (by ring)))
    0 _ _ (by rw [zero_mul, add_zero, add_zero]; exact ap_first hM hN he (dg j0) _ _ (h j0))
  rw [List.length_range', zero_add] at h1
  exact rot_inv hM hN he hw hw64 G bs hn (rotTerms_first G bs hbs E hE) (by unfold rotOps; omega) acc _ _ h1

omit hbs in
/-- **C57.**  `blindRotateOriginalTo`. -/
theorem C57_blindRotateOriginal (hbs : bs = 1) (n : ℕ) (lut : PP l w) :
    ∃ err : ℕ → Fin (k + 1) → PP l w, (∀ i t, pabs (err i t) ≤ rotErr l w D k G.level bs) ∧
      blindRotateOriginalF M e G n (fwdKey M e brk) ct lut = blindRotateOriginal G n brk err ct lut := by
  have hb0 : 0 < bs := by omega
  have hE : G.level ≤ (k + 1) * G.level := Nat.le_mul_of_pos_left _ (Nat.succ_pos k)
  have hone : ∀ (E : ℕ), E ≤ (k + 1) * G.level → 2 * E ≤ rotTerms k G.level bs := fun E h => by
    unfold rotTerms; rw [hbs]; omega
  obtain ⟨e0, g1, g2⟩ := rot_inv hM hN he hw hw64 G bs hn (hone _ hE)
    (show G.level + 1 ≤ _ by unfold rotOps; omega) (accInit k lut (modSwitch w (2 ^ (l + 4)) (ct 0))) _ _
    (ap_first hM hN he (-(modSwitch w (2 ^ (l + 4)) (ct 1) : ℤ)) _ _
      (ap_gadgetProd hM hN he G.level hL (brk 0 0) (G.dec (accInit k lut (modSwitch w (2 ^ (l + 4)) (ct 0)) 0)) (hD _)))
  obtain ⟨err, h1, h2, h3⟩ := foldl_choice (fun er : Fin (k + 1) → PP l w => ∀ t, pabs (er t) ≤ rotErr l w D k G.level bs)
    (fun acc i => invAddF M e acc (fctMul M e (monoSubOneF M e (-(modSwitch w (2 ^ (l + 4)) (ct (i + 1)) : ℤ)))
      (extProdF M e G.level (fwdKey M e brk i) (fun t => decF M e G (acc t)))))
    (fun acc i er => invFFTAdd acc (ctMul (monoSubOne _ w (-(modSwitch w (2 ^ (l + 4)) (ct (i + 1)) : ℤ)))
      (extProd G.level (brk i) (fun t => G.dec (acc t)))) er)
    (fun acc i => rot_inv hM hN he hw hw64 G bs hn (hone _ le_rfl)
      (show (k + 1) * G.level + 1 ≤ _ by unfold rotOps; omega) acc _ _
      (ap_first hM hN he (-(modSwitch w (2 ^ (l + 4)) (ct (i + 1)) : ℤ)) _ _
        (ap_extProd hM hN he G.level hL (brk i) (fun t => G.dec (acc t)) (fun t => hD (acc t)))))
    (List.range' 1 (n - 1)) List.nodup_range' (invFFTAdd (accInit k lut (modSwitch w (2 ^ (l + 4)) (ct 0)))
      (ctMul (monoSubOne _ w (-(modSwitch w (2 ^ (l + 4)) (ct 1) : ℤ)))
        (gadgetProd G.level (brk 0 0) (G.dec (accInit k lut (modSwitch w (2 ^ (l + 4)) (ct 0)) 0)))) e0)
    (fun _ => e0) (fun _ => g1)
  refine ⟨err, h1, ?_⟩
  have h00 : err 0 = e0 := h2 0 (by rw [List.mem_range'_1]; omega)
  unfold blindRotateOriginalF blindRotateOriginal
  simp only
  rw [h00, ← h3]
  congr 1

/-- **C57.**  `blindRotateBlockTo`. -/
theorem C57_blindRotateBlock (bc : ℕ) (lut : PP l w) :
    ∃ err : ℕ → Fin (k + 1) → PP l w, (∀ i t, pabs (err i t) ≤ rotErr l w D k G.level bs) ∧
      blindRotateBlockF M e G bs bc (fwdKey M e brk) ct lut = blindRotateBlock G bs bc brk err ct lut := by
  have hE : G.level ≤ (k + 1) * G.level := Nat.le_mul_of_pos_left _ (Nat.succ_pos k)
  set a0 := accInit k lut (modSwitch w (2 ^ (l + 4)) (ct 0)) with ha0
  obtain ⟨e0, g1, g2⟩ := ap_block hM hN he hw hw64 G bs hbs hn G.level hE 0
    (fun j => gadgetProdF M e G.level (fwdKey M e brk j 0) (decF M e G (a0 0))) (fun j => gadgetProd G.level (brk j 0) (G.dec (a0 0)))
    (fun j => ap_gadgetProd hM hN he G.level hL (brk j 0) (G.dec (a0 0)) (hD _))
    (fun j => -(modSwitch w (2 ^ (l + 4)) (ct (j + 1)) : ℤ)) a0
  obtain ⟨err, h1, h2, h3⟩ := foldl_choice (fun er : Fin (k + 1) → PP l w => ∀ t, pabs (er t) ≤ rotErr l w D k G.level bs) _ _
    (fun (acc : Fin (k + 1) → PP l w) (i : ℕ) => ap_block hM hN he hw hw64 G bs hbs hn ((k + 1) * G.level) le_rfl (i * bs)
      (fun j => extProdF M e G.level (fwdKey M e brk j) (fun t => decF M e G (acc t)))
      (fun j => extProd G.level (brk j) (fun t => G.dec (acc t)))
      (fun j => ap_extProd hM hN he G.level hL (brk j) (fun t => G.dec (acc t)) (fun t => hD (acc t)))
      (fun j => -(modSwitch w (2 ^ (l + 4)) (ct (j + 1)) : ℤ)) acc)
    (List.range' 1 (bc - 1)) List.nodup_range' _ (fun _ => e0) (fun _ => g1)
  refine ⟨err, h1, ?_⟩
  have h00 : err 0 = e0 := h2 0 (by rw [List.mem_range'_1]; omega)
  unfold blindRotateBlockF blindRotateBlock
  simp only
  rw [h00, ← ha0]
  refine Eq.trans ?_ h3
  exact congrArg (fun x => List.foldl _ x _) g2

omit hL hD in
/-- One block of the extended algorithm. -/
theorem ap_extBlock (f L E : ℕ) (hE : E ≤ (k + 1) * G.level) (j0 : ℕ) (prodF : ℕ → ℕ → Fin (k + 1) → FPoly)
    (prod : ℕ → ℕ → Fin (k + 1) → PP l w) (h : ∀ j q, APs D E E (prodF j q) (prod j q)) (acc : ℕ → Fin (k + 1) → PP l w) :
    ∃ err : ℕ → Fin (k + 1) → PP l w, (∀ q t, pabs (err q t) ≤ rotErr l w D k G.level bs) ∧
      extBlockF M e f L bs j0 prodF ct acc = extBlock f L bs j0 prod ct err acc := by
  have h1 := foldl_rel (fun i (v : ℕ → Fin (k + 1) → FPoly) (q : ℕ → Fin (k + 1) → PP l w) =>
      ∀ s, APs D (2 * E + i * (2 * E)) (E + 2 + 2 * i) (v s) (q s))
    (fun fa j => extTermAddF M e f (negSwitch w L (ct (j + 1))) (prodF j) fa)
    (fun fa j => extTermAdd f (negSwitch w L (ct (j + 1))) (prod j) fa)
    (List.range' (j0 + 1) (bs - 1))
    (fun j _ i a b hab s => (ap_extTermAdd hM hN he (by omega) _ _ _ _ _ _ hab (h j) s).mono (le_of_eq (by ring)) (le_of_eq (by ring)))
    0 _ _ (by rw [zero_mul, add_zero, mul_zero, add_zero]; exact ap_extTerm hM hN he f (negSwitch w L (ct (j0 + 1))) _ _ (h j0))
  rw [List.length_range', zero_add] at h1
  choose err h2 h3 using fun q => rot_inv hM hN he hw hw64 G bs hn (rotTerms_first G bs hbs E hE)
    (show E + 2 + 2 * (bs - 1) ≤ _ by unfold rotOps; omega) (acc q) _ _ (h1 q)
  exact ⟨err, h2, funext h3⟩

/-- **C57.**  `blindRotateExtendedTo`, for two or more blocks. -/
theorem C57_blindRotateExtended (f bc : ℕ) (hbc : 2 ≤ bc) (old lut : ℕ → PP l w) :
    ∃ err : ℕ → ℕ → Fin (k + 1) → PP l w, (∀ i q t, pabs (err i q t) ≤ rotErr l w D k G.level bs) ∧
      blindRotateExtendedF M e G f bs bc (fwdKey M e brk) old ct lut = blindRotateExtended G f bs bc brk err old ct lut := by
  have hE : G.level ≤ (k + 1) * G.level := Nat.le_mul_of_pos_left _ (Nat.succ_pos k)
  set a0 : ℕ → Fin (k + 1) → PP l w := fun q => Fin.cons (extInit f lut (negSwitch w (f * 2 ^ (l + 4)) (ct 0)) old q) (fun _ => 0) with ha0
  obtain ⟨e0, g1, g2⟩ := ap_extBlock hM hN he hw hw64 G bs hbs hn ct f (f * 2 ^ (l + 4)) G.level hE 0
    (fun j q => gadgetProdF M e G.level (fwdKey M e brk j 0) (decF M e G (a0 q 0)))
    (fun j q => gadgetProd G.level (brk j 0) (G.dec (a0 q 0)))
    (fun j q => ap_gadgetProd hM hN he G.level hL (brk j 0) (G.dec (a0 q 0)) (hD _)) a0
  have hstep := fun (acc : ℕ → Fin (k + 1) → PP l w) (j0 : ℕ) =>
    ap_extBlock hM hN he hw hw64 G bs hbs hn ct f (f * 2 ^ (l + 4)) ((k + 1) * G.level) le_rfl j0
      (fun j q => extProdF M e G.level (fwdKey M e brk j) (fun t => decF M e G (acc q t)))
      (fun j q => extProd G.level (brk j) (fun t => G.dec (acc q t)))
      (fun j q => ap_extProd hM hN he G.level hL (brk j) (fun t => G.dec (acc q t)) (fun t => hD (acc q t))) acc
  obtain ⟨err, h1, h2, h3⟩ := foldl_choice (fun er : ℕ → Fin (k + 1) → PP l w => ∀ q t, pabs (er q t) ≤ rotErr l w D k G.level bs) _ _
    (fun (acc : ℕ → Fin (k + 1) → PP l w) (i : ℕ) => hstep acc (i * bs))
    (List.range' 1 (bc - 2)) List.nodup_range'
    (extBlock f (f * 2 ^ (l + 4)) bs 0 (fun j q => gadgetProd G.level (brk j 0) (G.dec (a0 q 0))) ct e0 a0) (fun _ => e0) (fun _ => g1)
  obtain ⟨e1, k1, k2⟩ := hstep _ (bc * bs - bs)
  refine ⟨Function.update err (bc - 1) e1, fun i => ?_, ?_⟩
  · by_cases hi : i = bc - 1
    · subst hi; rw [Function.update_self]; exact k1
    · rw [Function.update_of_ne hi]; exact h1 i
  · have h00 : err 0 = e0 := h2 0 (by rw [List.mem_range'_1]; omega)
    unfold blindRotateExtendedF blindRotateExtended
    simp only
    rw [Function.update_self, Function.update_of_ne (by omega), h00, ← ha0]
    refine (congrFun k2 0).trans ?_
    have h4 : ∀ x, (List.range' 1 (bc - 2)).foldl (fun acc i => extBlock f (f * 2 ^ (l + 4)) bs (i * bs)
        (fun j q => extProd G.level (brk j) (fun t => G.dec (acc q t))) ct (Function.update err (bc - 1) e1 i) acc) x =
        (List.range' 1 (bc - 2)).foldl (fun acc i => extBlock f (f * 2 ^ (l + 4)) bs (i * bs)
        (fun j q => extProd G.level (brk j) (fun t => G.dec (acc q t))) ct (err i) acc) x := by
      intro x
      refine List.foldl_ext _ _ _ fun acc i hi => ?_
      rw [List.mem_range'_1] at hi
      rw [Function.update_of_ne (by omega)]
    rw [h4, ← h3]
    rw [← g2]

/-- **C57.**  `BlindRotateTo`: the exact blind rotation, with an error of bounded size in every block. -/
theorem C57_blindRotate (f bc : ℕ) (hbc : f ≤ 1 ∨ 2 ≤ bc) (old lut : ℕ → PP l w) :
    ∃ err : ℕ → ℕ → Fin (k + 1) → PP l w, (∀ i q t, pabs (err i q t) ≤ rotErr l w D k G.level bs) ∧
      blindRotateF M e G f bs bc (fwdKey M e brk) old ct lut = blindRotate G f bs bc brk err old ct lut := by
  unfold blindRotateF blindRotate
  split
  · exact C57_blindRotateExtended hM hN he hw hw64 G hL hD bs hbs hn brk ct f bc (by omega) old lut
  · split
    · obtain ⟨err, h1, h2⟩ := C57_blindRotateBlock hM hN he hw hw64 G hL hD bs hbs hn brk ct bc (lut 0)
      exact ⟨fun i _ => err i, fun i _ => h1 i, h2⟩
    · obtain ⟨err, h1, h2⟩ := C57_blindRotateOriginal hM hN he hw hw64 G hL hD bs hn brk ct (by omega) (bs * bc) (lut 0)
      exact ⟨fun i _ => err i, fun i _ => h1 i, h2⟩

/-- **C57.**  `BootstrapLUTTo`. -/
theorem C57_bootstrapLUT (order : BootstrapOrder) (Gks : Gadget (BitVec w)) (f bc : ℕ) (hbc : f ≤ 1 ∨ 2 ≤ bc)
    (ksk : ℕ → ℕ → Fin (bs * bc + 1) → BitVec w) (old lut : ℕ → PP l w) (buf out : ℕ → BitVec w) :
    ∃ err : ℕ → ℕ → Fin (k + 1) → PP l w, (∀ i q t, pabs (err i q t) ≤ rotErr l w D k G.level bs) ∧
      bootstrapLUTF M e order G Gks f bs bc (fwdKey M e brk) ksk old buf out ct lut =
        bootstrapLUT order G Gks f bs bc brk ksk err old buf out ct lut := by
  cases order with
  | ksBr =>
    obtain ⟨err, h1, h2⟩ := C57_blindRotate hM hN he hw hw64 G hL hD bs hbs hn brk
      (ext0 (defaultKeySwitch Gks (bs * bc) (k * 2 ^ (l + 4)) ksk ct)) f bc hbc old lut
    refine ⟨err, h1, ?_⟩
    unfold bootstrapLUTF bootstrapLUT
    simp only
    rw [h2]
  | brKs =>
    obtain ⟨err, h1, h2⟩ := C57_blindRotate hM hN he hw hw64 G hL hD bs hbs hn brk ct f bc hbc old lut
    refine ⟨err, h1, ?_⟩
    unfold bootstrapLUTF bootstrapLUT
    simp only
    rw [h2]

/-- **C57.**  `BootstrapFuncTo`. -/
theorem C57_bootstrapFunc (order : BootstrapOrder) (Gks : Gadget (BitVec w)) (f bc : ℕ) (hbc : f ≤ 1 ∨ 2 ≤ bc)
    (ksk : ℕ → ℕ → Fin (bs * bc + 1) → BitVec w) (p scale : BitVec w) (raw : List (BitVec w)) (old : ℕ → PP l w)
    (buf out : ℕ → BitVec w) (F : ℕ → BitVec 64) :
    ∃ err : ℕ → ℕ → Fin (k + 1) → PP l w, (∀ i q t, pabs (err i q t) ≤ rotErr l w D k G.level bs) ∧
      bootstrapFuncF M e order G Gks f bs bc (fwdKey M e brk) ksk p scale raw old buf out ct F =
        bootstrapFunc order G Gks f bs bc brk ksk p scale raw err old buf out ct F := by
  unfold bootstrapFuncF bootstrapFunc
  cases hlut : genLUTCustom f (2 ^ (l + 4)) p scale F raw with
  | none => exact ⟨fun _ _ _ => 0, fun _ _ _ => pabs_zero_le _, by rw [Option.map_none, Option.map_none]⟩
  | some lut =>
    obtain ⟨err, h1, h2⟩ := C57_bootstrapLUT hM hN he hw hw64 G hL hD bs hbs hn brk ct order Gks f bc hbc ksk old (ext0 lut) buf out
    exact ⟨err, h1, by rw [Option.map_some, Option.map_some, h2]⟩
end
end
end

/-! ## Bootstrapping decrypts correctly in floating-point arithmetic -/

section
variable {M : Machine} (hM : Ieee M) {l : ℕ} {R : BitVec 64} (hN : R.toInt = 2 ^ (l + 4)) {e : Eval ℝ}
  (he : newEvaluatorFl M.arith M.cis R = some e) {w k : ℕ} (hw64 : w ≤ 64) (b : Boot w (2 ^ (l + 4)) k)

/-- `BootstrapFuncTo` in floating-point arithmetic: as `Boot.run`, with the blind rotation key in the Fourier domain. -/
noncomputable def Boot.runF (M : Machine) (e : Eval ℝ) (order : BootstrapOrder) (raw : List (BitVec w)) (old : ℕ → PP l w)
    (buf out ct : ℕ → BitVec w) (F : ℕ → BitVec 64) : Option (ℕ → BitVec w) :=
  bootstrapFuncF M e order (polyGadget (2 ^ (l + 4)) b.gbr) (scalarGadget b.gks) b.f b.bs b.bc (fwdKey M e b.brk) b.ksk b.p b.s raw
    old buf out ct F

/-- The bound on the error polynomials of blind rotation. -/
def Boot.rotErr : ℕ := Tfhe.rotErr l w (b.gbr.base.toNat / 2) k b.gbr.level b.bs

include hM hN he hw64

/-- **C57.**  Bootstrapping in floating-point arithmetic decrypts to the value of the function: nothing is assumed about the errors of
the Fourier transform, their bound `Fe` only has to be as large as the proven one. -/
theorem C57_decrypts (order : BootstrapOrder) (hb : b.Valid) (hext : b.f = 1 ∨ 2 ≤ b.bc)
    (hn : (3 * (l + 3) + rotOps k b.gbr.level b.bs + 4) * 1000 ≤ 2 ^ 46) (hFe : b.rotErr * (1 + k * 2 ^ (l + 4)) ≤ b.Fe)
    (raw : List (BitVec w)) (hraw : raw.length = b.f * 2 ^ (l + 4)) (old : ℕ → PP l w) (buf out ct : ℕ → BitVec w)
    (F : ℕ → BitVec 64) (message : BitVec 64) (noise : BitVec w)
    (hct : phase (lweKeyOf w (b.ctDim order) b.lk) (fun t => ct t) = encodeLWECustom message b.p b.s + noise)
    (hcond : (b.inNoise order (wabs noise) : ℚ) * (2 * (b.f * 2 ^ (l + 4) : ℕ)) / 2 ^ w + b.window
      ≤ (b.f * 2 ^ (l + 4) : ℕ) / (2 * b.p.toNat))
    (hout : (b.outNoise order : ℚ) + b.p.toNat + 2 ^ w / 2 ^ 50 < (b.s.toNat : ℚ) / 2) :
    ∃ res, b.runF M e order raw old buf out ct F = some res ∧
      decodeLWECustom (decryptLWEPhase (lweKeyOf w (b.ctDim order) b.lk) (fun t => res t)) b.p b.s
        = some ((((F ((message.setWidth w).toNat % b.p.toNat)).setWidth w).toNat % b.p.toNat : ℕ) : ℤ) := by
  have hG := polyGadget_bounded (N := 2 ^ (l + 4)) b.gbr hb.gbr
  obtain ⟨err, h1, h2⟩ := C57_bootstrapFunc hM hN he (D := b.gbr.base.toNat / 2) (k := k) hb.w1 hw64
    (polyGadget (2 ^ (l + 4)) b.gbr) hG.level_pos (fun p j hj => hG.dec_le p j hj) b.bs hb.bs hn b.brk ct order
    (scalarGadget b.gks) b.f b.bc (by omega) b.ksk b.p b.s raw old buf out F
  have hF : ∀ i q, pabs (phase b.sk (err i q)) ≤ b.Fe := fun i q =>
    ((polyNorm (2 ^ (l + 4)) w).phase_le b.sk (err i q) b.rotErr (2 ^ (l + 4)) (h1 i q) (glweKeyOf_mul b.lk)).trans hFe
  obtain ⟨res, h3, h4⟩ := C20_decrypts_partial b order hb hext raw hraw err hF old buf out ct F message noise hct hcond hout
  exact ⟨res, h2.trans h3, h4⟩
end

/-! ## Cases -/

theorem isFloat_nearest (x : ℝ) : IsFloat (nearest x) := by
  unfold nearest
  split
  · exact ⟨0, 0, by norm_num, by norm_num⟩
  · rename_i h
    have hpos : 0 < |x| := abs_pos.2 h
    have hlog := Int.lt_zpow_succ_log_self (b := 2) (by norm_num) |x|
    set s : ℝ := 2 ^ (Int.log 2 |x| - 52) with hs
    have hs0 : 0 < s := by positivity
    simp only
    set y := x / s with hy
    have hy53 : |y| < 2 ^ 53 := by
      rw [hy, abs_div, abs_of_pos hs0, div_lt_iff₀ hs0]
      refine hlog.trans_le (le_of_eq ?_)
      rw [hs, show ((2 : ℕ) : ℝ) = 2 by norm_num, show (2 : ℝ) ^ 53 = 2 ^ (53 : ℤ) by norm_cast, ← zpow_add₀ (by norm_num)]
      congr 1; ring
    rw [abs_lt] at hy53
    have key : ∀ z : ℤ, z = ⌊y⌋ ∨ z = ⌊y⌋ + 1 → IsFloat (z * s) := by
      intro z hz
      refine ⟨z, Int.log 2 |x| - 52, ?_, rfl⟩
      have h1 : -2 ^ 53 ≤ ⌊y⌋ := by rw [Int.le_floor]; norm_num; norm_num at hy53; exact hy53.1.le
      have h2 : ⌊y⌋ < 2 ^ 53 := by rw [Int.floor_lt]; norm_num; norm_num at hy53; exact hy53.2
      rw [abs_le]
      omega
    split
    · exact key _ (Or.inl rfl)
    · have k1 := key _ (Or.inr rfl)
      push_cast at k1
      split
      · exact k1
      · split
        · exact key _ (Or.inl rfl)
        · exact k1

theorem nearest_exact (x : ℝ) (hx : IsFloat x) : nearest x = x := by
  unfold nearest
  split
  · rename_i h; exact h.symm
  · rename_i h
    have hpos : 0 < |x| := abs_pos.2 h
    have hlog := Int.zpow_log_le_self (b := 2) (r := |x|) (by norm_num) hpos
    rw [show ((2 : ℕ) : ℝ) = 2 by norm_num] at hlog
    set L := Int.log 2 |x|
    have hs0 : (0 : ℝ) < 2 ^ (L - 52) := by positivity
    obtain ⟨m, t, hm, rfl⟩ := hx
    have hint : ∃ z : ℤ, (m * 2 ^ t : ℝ) / 2 ^ (L - 52) = z := by
      rcases le_or_gt (L - 52) t with ht | ht
      · refine ⟨m * 2 ^ (t - (L - 52)).toNat, ?_⟩
        rw [mul_div_assoc, ← zpow_sub₀ (by norm_num), ← Int.toNat_of_nonneg (sub_nonneg.2 ht)]
        push_cast
        rw [zpow_natCast, Int.toNat_natCast]
      · rw [abs_mul, abs_of_pos (show (0 : ℝ) < 2 ^ t by positivity)] at hlog
        have h1 : (2 : ℝ) ^ (L - t) ≤ |(m : ℝ)| := by
          rw [zpow_sub₀ (by norm_num), div_le_iff₀ (by positivity)]; exact hlog
        have hm' : |(m : ℝ)| ≤ 2 ^ 53 := by exact_mod_cast hm
        have h2 : (2 : ℝ) ^ (L - t) ≤ 2 ^ (53 : ℤ) := h1.trans (hm'.trans (le_of_eq (by norm_cast)))
        rw [zpow_le_zpow_iff_right₀ (by norm_num)] at h2
        have h3 : L - t = 53 := by omega
        rw [h3] at h1
        have h4 : |m| = 2 ^ 53 := le_antisymm hm (by exact_mod_cast h1)
        have h5 : t = L - 52 - 1 := by omega
        have h6 : (2 : ℝ) ^ t / 2 ^ (L - 52) = 1 / 2 := by
          rw [h5, ← zpow_sub₀ (by norm_num)]
          norm_num
        rw [mul_div_assoc, h6]
        rcases abs_eq (by norm_num : (0 : ℤ) ≤ 2 ^ 53) |>.1 h4 with rfl | rfl
        · exact ⟨2 ^ 52, by norm_num⟩
        · exact ⟨-2 ^ 52, by norm_num⟩
    obtain ⟨z, hz⟩ := hint
    simp only
    rw [hz, Int.fract_intCast, if_pos (by norm_num), Int.floor_intCast, ← hz, div_mul_cancel₀ _ hs0.ne']

/-- The platform of C56 with the conversion of amd64. -/
noncomputable def exMachine (f : Fuse) : Machine :=
  { exPlatform f with int64 := fun z => if -2 ^ 63 ≤ z ∧ z < 2 ^ 63 then z else -2 ^ 63 }

theorem exMachine_ok (f : Fuse) : Ieee (exMachine f) where
  toAccurate := exPlatform_ok f
  isFloat := isFloat_nearest
  exact := nearest_exact
  cos2 := fun θ _ => (nearest_err _).trans (by
    have := mul_le_mul_of_nonneg_left (Real.abs_cos_le_one θ) (show (0 : ℝ) ≤ 2⁻¹ ^ 53 by positivity)
    refine this.trans (by norm_num))
  sin2 := fun θ _ => (nearest_err _).trans (by
    have := mul_le_mul_of_nonneg_left (Real.abs_sin_le_one θ) (show (0 : ℝ) ≤ 2⁻¹ ^ 53 by positivity)
    refine this.trans (by norm_num))
  fit := fun z h1 h2 => if_pos ⟨h1, h2⟩
  top := Or.inl (by show (if -2 ^ 63 ≤ (2 ^ 63 : ℤ) ∧ (2 ^ 63 : ℤ) < 2 ^ 63 then (2 ^ 63 : ℤ) else -2 ^ 63) = _; norm_num)

theorem polyGadget_digits (l : ℕ) {w : ℕ} (g : GadgetParams w) (hg : g.Valid) :
    0 < (polyGadget (2 ^ (l + 4)) g).level ∧ ∀ p, ∀ j < (polyGadget (2 ^ (l + 4)) g).level,
      pabs ((polyGadget (2 ^ (l + 4)) g).dec p j) ≤ g.base.toNat / 2 :=
  have hG := polyGadget_bounded (N := 2 ^ (l + 4)) g hg
  ⟨hG.level_pos, fun p j hj => hG.dec_le p j hj⟩

/-- Rank 2048, 64-bit words, a gadget of 4 digits of 10 bits: the external product is off by less than `2^46` in every coefficient,
whatever the ciphertexts. -/
example (gsw : Fin 2 → ℕ → Fin 2 → PP 7 64) (o ct : ℕ) (m : Mem (PP 7 64)) :
    ∃ e, newEvaluatorFl (exMachine .avx2).arith (exMachine .avx2).cis 2048#64 = some e ∧
      ∃ err : Fin 2 → PP 7 64, (∀ t, pabs (err t) < 2 ^ 46) ∧
        externalProdToF (exMachine .avx2) e (polyGadget (2 ^ (7 + 4)) ⟨1024, 10, 4⟩) 1 o (fun i j => fwdCt (exMachine .avx2) e (gsw i j)) ct m =
          externalProdTo (polyGadget (2 ^ (7 + 4)) ⟨1024, 10, 4⟩) 1 o gsw ct err m := by
  have hN : (2048#64).toInt = 2 ^ (7 + 4) := by decide
  obtain ⟨e, he, -⟩ := C56_newEvaluator (exMachine_ok .avx2).toAccurate hN
  have hg : (⟨1024, 10, 4⟩ : GadgetParams 64).Valid := by constructor <;> decide
  have hG := polyGadget_digits 7 _ hg
  have hl : (polyGadget (2 ^ (7 + 4)) (⟨1024, 10, 4⟩ : GadgetParams 64)).level = 4 := rfl
  have hb : (⟨1024, 10, 4⟩ : GadgetParams 64).base.toNat / 2 = 512 := by decide
  rw [hb] at hG
  obtain ⟨err, h1, h2⟩ := C57_externalProd (exMachine_ok .avx2) hN he (D := 512) (k := 1) (by norm_num) (by norm_num)
    (polyGadget (2 ^ (7 + 4)) ⟨1024, 10, 4⟩) hG.1 hG.2
    (by rw [hl]; norm_num) gsw o ct m
  rw [hl] at h1
  refine ⟨e, he, err, fun t => (h1 t).trans_lt ?_, h2⟩
  show fftErr 7 64 512 ((1 + 1) * 4) ((1 + 1) * 4) < 2 ^ 46
  decide +kernel

/-- 32-bit words, degree 1024, rank 1, LWE dimension 64 in 32 blocks of 2 with one bit set each, modulus 2, noise of every element of
the blind rotation key up to 4; the masks and noises are arbitrary. -/
def exBootF (brMask : ℕ → Fin 2 → ℕ → Fin 1 → PP 6 32) (ksMask : ℕ → ℕ → Fin (2 * 32) → BitVec 32)
    (brNoise : ℕ → Fin 2 → ℕ → PP 6 32) (ksNoise : ℕ → ℕ → BitVec 32) : Boot 32 (2 ^ (6 + 4)) 1 where
  gbr := ⟨128, 7, 3⟩
  gks := ⟨16, 4, 6⟩
  f := 1
  bs := 2
  bc := 32
  p := 2#32
  s := 0x40000000#32
  lk := fun i => i % 2 == 1
  brMask := brMask
  brErr := 0
  brNoise := brNoise
  ksMask := ksMask
  ksNoise := ksNoise
  Bbr := 4
  Bks := 2 ^ 6
  Fe := 2021300

theorem exBootF_valid (brMask ksMask brNoise ksNoise) (h1 : ∀ j i l, pabs (brNoise j i l) ≤ 4) (h2 : ∀ i j, wabs (ksNoise i j) ≤ 2 ^ 6) :
    (exBootF brMask ksMask brNoise ksNoise).Valid where
  w1 := by norm_num
  gbr := show (⟨128, 7, 3⟩ : GadgetParams 32).Valid by constructor <;> decide
  gks := show (⟨16, 4, 6⟩ : GadgetParams 32).Valid by constructor <;> decide
  f := Nat.one_pos
  bs := show 0 < 2 by norm_num
  bc := show 0 < 32 by norm_num
  dim := show 2 * 32 ≤ 1 * 2 ^ (6 + 4) by norm_num
  L := show 2 * (1 * 2 ^ (6 + 4)) ≤ 2 ^ 53 by norm_num
  p0 := show 2#32 ≠ 0 by decide
  pw := show 2 * 2 < 2 ^ 32 by norm_num
  p52 := show 2 ≤ 2 ^ 52 by norm_num
  pL := show 2 * (1 * 2 ^ (6 + 4)) ≤ 2 ^ 51 by norm_num
  scale := show compileScale 32 2 = some 0x40000000 by decide +kernel
  key := by
    intro i _ j j' hj hj' h h'
    simp only [exBootF, beq_iff_eq] at *
    omega
  brNoise := fun j i l => by
    show pabs (brNoise j i l - ∑ t : Fin 1, (0 : PP 6 32)) ≤ _
    rw [Finset.sum_const_zero, sub_zero]; exact h1 j i l
  ksNoise := fun i j _ => h2 i j

/-- With rounding to nearest, every ciphertext with noise up to `2^26` is bootstrapped correctly. -/
example (fu : Fuse) (brMask ksMask brNoise ksNoise) (h1 : ∀ j i l, pabs (brNoise j i l) ≤ 4) (h2 : ∀ i j, wabs (ksNoise i j) ≤ 2 ^ 6)
    (order : BootstrapOrder) (raw : List (BitVec 32)) (hraw : raw.length = 2 ^ 10) (old : ℕ → PP 6 32)
    (buf out mask : ℕ → BitVec 32) (F : ℕ → BitVec 64) (noise : BitVec 32) (hno : wabs noise ≤ 2 ^ 26) :
    let b := exBootF brMask ksMask brNoise ksNoise
    let ct := fun t => if t = 0 then encodeLWECustom 1 2#32 0x40000000#32 + noise
        - ∑ i ∈ Finset.range (b.ctDim order), (if b.lk i then mask i else 0) else mask (t - 1)
    ∃ e, newEvaluatorFl (exMachine fu).arith (exMachine fu).cis 1024#64 = some e ∧
      ∃ res, b.runF (exMachine fu) e order raw old buf out ct F = some res ∧
        decodeLWECustom (decryptLWEPhase (lweKeyOf 32 (b.ctDim order) b.lk) (fun t => res t)) 2#32 0x40000000#32
          = some ((((F 1).setWidth 32).toNat % 2 : ℕ) : ℤ) := by
  intro b ct
  have hN : (1024#64).toInt = 2 ^ (6 + 4) := by decide
  obtain ⟨e, he, -⟩ := C56_newEvaluator (exMachine_ok fu).toAccurate hN
  refine ⟨e, he, ?_⟩
  have hw : weight (2 * 32) (fun i => i % 2 == 1) = 32 := by decide +kernel
  have hks : b.ksOut ≤ 2 ^ 22 := by
    show ksBound (⟨16, 4, 6⟩ : GadgetParams 32) (1 * 2 ^ (6 + 4) - 2 * 32) (2 ^ 6) ≤ _
    decide +kernel
  have hbr : b.brOut ≤ 410000000 := by
    show 32 * (2 * (2 * ((2 ^ (32 - 3 * 7) / 2) * (1 + 1 * 2 ^ (6 + 4)) + (1 + 1) * (3 * (2 ^ (6 + 4) * (128 / 2 * 4))))) + 2021300) ≤ _
    norm_num
  have hin : b.inNoise order (wabs noise) ≤ 2 ^ 26 + 2 ^ 22 := by
    cases order
    · exact Nat.add_le_add hno hks
    · exact hno.trans (by norm_num)
  have hon : b.outNoise order ≤ 410000000 + 2 ^ 22 := by
    cases order
    · exact hbr.trans (by norm_num)
    · exact Nat.add_le_add hbr hks
  refine C57_decrypts (exMachine_ok fu) hN he (by norm_num) b order (exBootF_valid _ _ _ _ h1 h2) (Or.inl rfl) ?_ ?_ raw
    (hraw.trans (Nat.one_mul _).symm) old buf out ct F 1 noise ?_ ?_ ?_
  · show (3 * (6 + 3) + rotOps 1 3 2 + 4) * 1000 ≤ 2 ^ 46
    decide +kernel
  · show Tfhe.rotErr 6 32 (128 / 2) 1 3 2 * (1 + 1 * 2 ^ (6 + 4)) ≤ 2021300
    decide +kernel
  · rw [phase_lweKeyOf]
    unfold binPhase
    simp only [ct, if_true, Nat.add_sub_cancel, Nat.succ_ne_zero, if_false]
    exact sub_add_cancel _ _
  · have hin' : (b.inNoise order (wabs noise) : ℚ) ≤ 2 ^ 26 + 2 ^ 22 := by exact_mod_cast hin
    show _ * (2 * ((1 * 2 ^ (6 + 4) : ℕ) : ℚ)) / 2 ^ 32 + ((1 + (weight (2 * 32) (fun i => i % 2 == 1) : ℚ)) * switchErr (1 * 2 ^ (6 + 4))
      + ((1 * 2 ^ (6 + 4) : ℕ) : ℚ) * |(2 : ℚ) ^ 32 - 2 * ((2 : ℕ) : ℚ) * ((0x40000000 : ℕ) : ℚ)| / 2 ^ 32 + extShift 1 + 1)
      ≤ ((1 * 2 ^ (6 + 4) : ℕ) : ℚ) / (2 * ((2 : ℕ) : ℚ))
    rw [hw]
    unfold switchErr extShift
    norm_num
    linarith
  · have hon' : (b.outNoise order : ℚ) ≤ 410000000 + 2 ^ 22 := by exact_mod_cast hon
    show _ + ((2 : ℕ) : ℚ) + 2 ^ 32 / 2 ^ 50 < ((0x40000000 : ℕ) : ℚ) / 2
    norm_num
    linarith

end Tfhe
