import Verif.Spec.FpuReal
import Verif.Lemma.AsmFoldVal
import Verif.Lemma.FftErr
import Verif.Lemma.ProdFloat
import Verif.Props.C67

/-!
# The operations of the processor as rounded operations on reals, and transforms on related numbers
-/
namespace Tfhe
namespace Fft

section Rel
variable {A C : Type} (R Rw : A → C → Prop)

/-- Butterflies that take related numbers, with related twiddle factors, to related numbers. -/
def RelB (B : A → A → A → A → A → A → A × A × A × A) (B' : C → C → C → C → C → C → C × C × C × C) : Prop :=
  ∀ a b c d e f a' b' c' d' e' f', R a a' → R b b' → R c c' → R d d' → Rw e e' → Rw f f' →
    R (B a b c d e f).1 (B' a' b' c' d' e' f').1 ∧ R (B a b c d e f).2.1 (B' a' b' c' d' e' f').2.1 ∧
    R (B a b c d e f).2.2.1 (B' a' b' c' d' e' f').2.2.1 ∧ R (B a b c d e f).2.2.2 (B' a' b' c' d' e' f').2.2.2

variable {R Rw} {B B1 : A → A → A → A → A → A → A × A × A × A} {B' B1' : C → C → C → C → C → C → C × C × C × C}

theorem rel_upd {x : ℕ → A} {x' : ℕ → C} (h : ∀ i, R (x i) (x' i)) (a : ℕ) {y : A} {y' : C} (hy : R y y') :
    ∀ i, R (upd x a y i) (upd x' a y' i) := fun i => by
  unfold upd; split
  · exact hy
  · exact h i

theorem rel_bf (hB : RelB R Rw B B') {x : ℕ → A} {x' : ℕ → C} (h : ∀ i, R (x i) (x' i)) (a b d e : ℕ) {w : A × A} {w' : C × C}
    (hw : Rw w.1 w'.1 ∧ Rw w.2 w'.2) : ∀ i, R (bf B x a b d e w i) (bf B' x' a b d e w' i) := by
  obtain ⟨h1, h2, h3, h4⟩ := hB _ _ _ _ _ _ _ _ _ _ _ _ (h a) (h b) (h d) (h e) hw.1 hw.2
  exact rel_upd (rel_upd (rel_upd (rel_upd h _ h1) _ h2) _ h3) _ h4

theorem rel_bf8 (hB : RelB R Rw B B') {x : ℕ → A} {x' : ℕ → C} (h : ∀ i, R (x i) (x' i)) (j t : ℕ) {w : A × A} {w' : C × C}
    (hw : Rw w.1 w'.1 ∧ Rw w.2 w'.2) : ∀ i, R (bf8 B x j t w i) (bf8 B' x' j t w' i) :=
  rel_bf hB (rel_bf hB (rel_bf hB (rel_bf hB h _ _ _ _ hw) _ _ _ _ hw) _ _ _ _ hw) _ _ _ _ hw

theorem rel_bfRow (hB : RelB R Rw B B') {x : ℕ → A} {x' : ℕ → C} (h : ∀ i, R (x i) (x' i)) (j t : ℕ) {w : A × A} {w' : C × C}
    (hw : Rw w.1 w'.1 ∧ Rw w.2 w'.2) : ∀ i, R (bfRow B x j t w i) (bfRow B' x' j t w' i) := by
  unfold bfRow
  generalize List.range ((t + 7) / 8) = L
  induction L generalizing x x' with
  | nil => exact h
  | cons J L ih => exact ih (rel_bf8 hB h _ _ hw)

variable {tw : ℕ → A × A} {tw' : ℕ → C × C}

/-- Related vectors at the same place in the tables. -/
def RelS (R : A → C → Prop) (s : (ℕ → A) × ℕ) (s' : (ℕ → C) × ℕ) : Prop := (∀ i, R (s.1 i) (s'.1 i)) ∧ s.2 = s'.2

theorem rel_foldl {f : (ℕ → A) × ℕ → ℕ → (ℕ → A) × ℕ} {f' : (ℕ → C) × ℕ → ℕ → (ℕ → C) × ℕ}
    (hf : ∀ s s' i, RelS R s s' → RelS R (f s i) (f' s' i)) (L : List ℕ) : ∀ {s s'}, RelS R s s' → RelS R (L.foldl f s) (L.foldl f' s') := by
  induction L with
  | nil => exact fun h => h
  | cons J L ih => exact fun h => ih (hf _ _ _ h)

theorem rel_bfStage (hB : RelB R Rw B B') (htw : ∀ i, Rw (tw i).1 (tw' i).1 ∧ Rw (tw i).2 (tw' i).2) (m t : ℕ) {s : (ℕ → A) × ℕ}
    {s' : (ℕ → C) × ℕ} (h : RelS R s s') : RelS R (bfStage B tw m t s) (bfStage B' tw' m t s') :=
  rel_foldl (fun s s' i h => ⟨rel_bfRow hB h.1 _ _ (by rw [h.2]; exact htw _), by simp only [h.2]⟩) _ h

theorem rel_bfStage2 (hB : RelB R Rw B B') (htw : ∀ i, Rw (tw i).1 (tw' i).1 ∧ Rw (tw i).2 (tw' i).2) (N : ℕ) {s : (ℕ → A) × ℕ}
    {s' : (ℕ → C) × ℕ} (h : RelS R s s') : RelS R (bfStage2 B tw N s) (bfStage2 B' tw' N s') :=
  rel_foldl (fun s s' i h => ⟨rel_bf hB (rel_bf hB h.1 _ _ _ _ (by rw [h.2]; exact htw _)) _ _ _ _ (by rw [h.2]; exact htw _),
    by simp only [h.2]⟩) _ h

theorem rel_bfStage1 (hB : RelB R Rw B B') (htw : ∀ i, Rw (tw i).1 (tw' i).1 ∧ Rw (tw i).2 (tw' i).2) (N : ℕ) {s : (ℕ → A) × ℕ}
    {s' : (ℕ → C) × ℕ} (h : RelS R s s') : RelS R (bfStage1 B tw N s) (bfStage1 B' tw' N s') :=
  rel_foldl (fun s s' i h => ⟨rel_bf hB (rel_bf hB h.1 _ _ _ _ (by rw [h.2]; exact htw _)) _ _ _ _ (by rw [h.2]; exact htw _),
    by simp only [h.2]⟩) _ h

theorem rel_fwdMid (hB : RelB R Rw B B') (htw : ∀ i, Rw (tw i).1 (tw' i).1 ∧ Rw (tw i).2 (tw' i).2) (N fuel : ℕ) : ∀ (m t : ℕ) {s s'},
    RelS R s s' → RelS R (fwdMid B tw N fuel m t s) (fwdMid B' tw' N fuel m t s') := by
  induction fuel with
  | zero => exact fun _ _ _ _ h => h
  | succ fuel ih =>
    intro m t s s' h
    unfold fwdMid
    split
    · exact ih _ _ (rel_bfStage hB htw _ _ h)
    · exact h

theorem rel_invMid (hB : RelB R Rw B B') (htw : ∀ i, Rw (tw i).1 (tw' i).1 ∧ Rw (tw i).2 (tw' i).2) (fuel : ℕ) : ∀ (m t : ℕ) {s s'},
    RelS R s s' → RelS R (invMid B tw fuel m t s) (invMid B' tw' fuel m t s') := by
  induction fuel with
  | zero => exact fun _ _ _ _ h => h
  | succ fuel ih =>
    intro m t s s' h
    unfold invMid
    split
    · exact ih _ _ (rel_bfStage hB htw _ _ h)
    · exact h

/-- Forward transforms of related vectors are related. -/
theorem rel_fwdFFTStages (hB : RelB R Rw B B') (hB1 : RelB R Rw B1 B1') (htw : ∀ i, Rw (tw i).1 (tw' i).1 ∧ Rw (tw i).2 (tw' i).2) (N : ℕ)
    {x : ℕ → A} {x' : ℕ → C} (hx : ∀ i, R (x i) (x' i)) :
    ∀ j, R (fwdFFTStages B B1 N x tw j) (fwdFFTStages B' B1' N x' tw' j) :=
  (rel_bfStage1 hB1 htw N (rel_bfStage2 hB htw N (rel_fwdMid hB htw N N 2 (N / 2)
    (s := (_, 1)) (s' := (_, 1)) ⟨rel_bfRow hB hx _ _ (htw 0), rfl⟩))).1

/-- Inverse transforms of related vectors are related below `N`. -/
theorem rel_invFFTStages (hB : RelB R Rw B B') (hB1 : RelB R Rw B1 B1') (htw : ∀ i, Rw (tw i).1 (tw' i).1 ∧ Rw (tw i).2 (tw' i).2) (N : ℕ)
    {R2 : A → C → Prop} {sc : A → A} {sc' : C → C} (hs : ∀ a c, R a c → R2 (sc a) (sc' c))
    {x : ℕ → A} {x' : ℕ → C} (hx : ∀ i, R (x i) (x' i)) :
    ∀ j < N, R2 (invFFTStages B B1 sc N x tw j) (invFFTStages B' B1' sc' N x' tw' j) := by
  intro j hj
  have h := rel_invMid hB htw N (N / 16) 8 (rel_bfStage2 hB htw N (rel_bfStage1 hB1 htw N (s := (x, 0)) (s' := (x', 0)) ⟨hx, rfl⟩))
  simp only [invFFTStages, if_pos hj]
  exact hs _ _ (rel_bfRow hB h.1 _ _ (by rw [h.2]; exact htw _) j)

end Rel

end Fft

namespace Asm
open Fft

variable {F : Fpu} {fl : ℝ → ℝ}

theorem cast_le_max {v : ℚ} (h : |(v : ℝ)| ≤ 2 ^ (1023 : ℤ)) : |v| ≤ 2 ^ (1023 : ℤ) := by exact_mod_cast h

theorem rep_top : F64Rep (2 ^ (1023 : ℤ)) :=
  ⟨2 ^ 52, 971, by norm_num, by omega, by omega, by rw [Int.cast_pow, Int.cast_ofNat]; exact (two_add_nat (by omega)).symm⟩

theorem rnd_le_max {rnd : ℚ → ℚ} (h : IeeeFpu F rnd) {v : ℚ} (hv : |v| ≤ 2 ^ (1023 : ℤ)) : |rnd v| ≤ 2 ^ (1023 : ℤ) := by
  have h1 := h.mono _ _ (abs_le.1 hv).1
  have h2 := h.mono _ _ (abs_le.1 hv).2
  rw [h.exact _ rep_top] at h2
  rw [h.exact _ (rep_neg rep_top)] at h1
  exact abs_le.2 ⟨h1, h2⟩

section Ops
variable (h : RoundsAs F fl) {x y z : BitVec 64} {a b c : ℝ} (hx : IsVal x a) (hy : IsVal y b) (hz : IsVal z c)
include h hx

section
include hy
theorem val_add (hr : InRange (a + b)) : IsVal (F.add x y) (fl (a + b)) := by
  obtain ⟨rnd, h, e⟩ := h
  obtain ⟨fx, rfl⟩ := hx; obtain ⟨fy, rfl⟩ := hy
  have := h.add x y fx fy (cast_le_max (by push_cast; exact hr.1))
  refine ⟨this.1, ?_⟩
  have e := e (f64Val x + f64Val y) (by push_cast; exact hr)
  push_cast at e
  rw [this.2, e]

theorem val_sub (hr : InRange (a - b)) : IsVal (F.sub x y) (fl (a - b)) := by
  obtain ⟨rnd, h, e⟩ := h
  obtain ⟨fx, rfl⟩ := hx; obtain ⟨fy, rfl⟩ := hy
  have := h.sub x y fx fy (cast_le_max (by push_cast; exact hr.1))
  refine ⟨this.1, ?_⟩
  have e := e (f64Val x - f64Val y) (by push_cast; exact hr)
  push_cast at e
  rw [this.2, e]

theorem val_mul (hr : InRange (a * b)) : IsVal (F.mul x y) (fl (a * b)) := by
  obtain ⟨rnd, h, e⟩ := h
  obtain ⟨fx, rfl⟩ := hx; obtain ⟨fy, rfl⟩ := hy
  have := h.mul x y fx fy (cast_le_max (by push_cast; exact hr.1))
  refine ⟨this.1, ?_⟩
  have e := e (f64Val x * f64Val y) (by push_cast; exact hr)
  push_cast at e
  rw [this.2, e]

include hz
theorem val_fma (hr : InRange (a * b + c)) : IsVal (F.fma x y z) (fl (a * b + c)) ∧ |fl (a * b + c)| ≤ 2 ^ (1023 : ℤ) := by
  obtain ⟨rnd, h, e⟩ := h
  obtain ⟨fx, rfl⟩ := hx; obtain ⟨fy, rfl⟩ := hy; obtain ⟨fz, rfl⟩ := hz
  have hb := cast_le_max (v := f64Val x * f64Val y + f64Val z) (by push_cast; exact hr.1)
  have := h.fma x y z fx fy fz hb
  have e := e (f64Val x * f64Val y + f64Val z) (by push_cast; exact hr)
  push_cast at e
  refine ⟨⟨this.1, by rw [this.2, e]⟩, ?_⟩
  rw [e]; exact_mod_cast rnd_le_max h.toIeeeFpu hb

theorem val_fnma (hr : InRange (c - a * b)) : IsVal (F.fnma x y z) (fl (c - a * b)) := by
  obtain ⟨rnd, h, e⟩ := h
  obtain ⟨fx, rfl⟩ := hx; obtain ⟨fy, rfl⟩ := hy; obtain ⟨fz, rfl⟩ := hz
  have hb := cast_le_max (v := f64Val z - f64Val x * f64Val y) (by push_cast; exact hr.1)
  have := h.fnma x y z fx fy fz hb
  have e := e (f64Val z - f64Val x * f64Val y) (by push_cast; exact hr)
  push_cast at e
  exact ⟨this.1, by rw [this.2, e]⟩

theorem val_fms (hr : InRange (a * b - c)) : IsVal (F.fms x y z) (fl (a * b - c)) ∧ |fl (a * b - c)| ≤ 2 ^ (1023 : ℤ) := by
  obtain ⟨rnd, h, e⟩ := h
  obtain ⟨fx, rfl⟩ := hx; obtain ⟨fy, rfl⟩ := hy; obtain ⟨fz, rfl⟩ := hz
  have hb := cast_le_max (v := f64Val x * f64Val y - f64Val z) (by push_cast; exact hr.1)
  have := h.fms x y z fx fy fz hb
  have e := e (f64Val x * f64Val y - f64Val z) (by push_cast; exact hr)
  push_cast at e
  refine ⟨⟨this.1, by rw [this.2, e]⟩, ?_⟩
  rw [e]; exact_mod_cast rnd_le_max h.toIeeeFpu hb
end

theorem val_neg (hr : |a| ≤ 2 ^ (1023 : ℤ)) : IsVal (F.sub 0 x) (-a) := by
  obtain ⟨rnd, h, -⟩ := h
  obtain ⟨fx, rfl⟩ := hx
  have f0 : f64Finite 0 := by unfold f64Finite f64Exp; decide
  have v0 : f64Val 0 = 0 := by unfold f64Val f64Abs f64Exp f64Frac; simp
  have hb : |f64Val 0 - f64Val x| ≤ 2 ^ (1023 : ℤ) := by rw [v0, zero_sub, abs_neg]; exact cast_le_max hr
  have := h.sub 0 x f0 fx hb
  refine ⟨this.1, ?_⟩
  rw [this.2, v0, zero_sub, h.exact _ (rep_neg (f64Val_rep fx))]; push_cast; rfl

end Ops

theorem isVal_zero : IsVal 0 0 := by
  refine ⟨by unfold f64Finite f64Exp; decide, ?_⟩
  unfold f64Val f64Abs f64Exp f64Frac; simp

/-! ### The butterflies -/

section Prod
variable (h : RoundsAs F fl) {X Y Z T : BitVec 64} {x y z t : ℝ} (hx : IsVal X x) (hy : IsVal Y y) (hz : IsVal Z z) (ht : IsVal T t)
include h hx hy hz ht

theorem val_right_re (hr : fusedInRange .right fl (-1) x y z t) : IsVal (F.fnma Z T (F.mul X Y)) (fused .right fl (-1) x y z t) := by
  simp only [fusedInRange, fused, neg_mul, one_mul, ← sub_eq_add_neg] at hr ⊢
  exact val_fnma h hz ht (val_mul h hx hy hr.1) hr.2

theorem val_right_im (hr : fusedInRange .right fl 1 x y z t) : IsVal (F.fma Z T (F.mul X Y)) (fused .right fl 1 x y z t) := by
  simp only [fusedInRange, fused, one_mul, add_comm _ (z * t)] at hr ⊢
  exact (val_fma h hz ht (val_mul h hx hy hr.1) hr.2).1

theorem val_left_re (hr : fusedInRange .left fl (-1) x y z t) : IsVal (F.fms X Y (F.mul Z T)) (fused .left fl (-1) x y z t) ∧
    |fused .left fl (-1) x y z t| ≤ 2 ^ (1023 : ℤ) := by
  simp only [fusedInRange, fused, neg_mul, one_mul, ← sub_eq_add_neg] at hr ⊢
  exact val_fms h hx hy (val_mul h hz ht hr.1) hr.2

theorem val_left_im (hr : fusedInRange .left fl 1 x y z t) : IsVal (F.fma X Y (F.mul Z T)) (fused .left fl 1 x y z t) ∧
    |fused .left fl 1 x y z t| ≤ 2 ^ (1023 : ℤ) := by
  simp only [fusedInRange, fused, one_mul] at hr ⊢
  exact val_fma h hx hy (val_mul h hz ht hr.1) hr.2

end Prod

/-- A pattern and the number it stands for, if all went well. -/
def HoldsVal (x : BitVec 64) (r : ℝ × Prop) : Prop := r.2 → IsVal x r.1

theorem rel_fwdRow (h : RoundsAs F fl) :
    RelB HoldsVal HoldsVal (fwdRow F) (watch (fwdInRange .right fl) (fwdButterflyFl (.ofFl .avx2 fl))) := by
  intro a b c d e f a' b' c' d' e' f' ha hb hc hd he hf
  have hR (p : c'.2 ∧ d'.2 ∧ e'.2 ∧ f'.2) (r : fusedInRange .right fl (-1) c'.1 e'.1 d'.1 f'.1) :=
    val_right_re h (hc p.1) (he p.2.2.1) (hd p.2.1) (hf p.2.2.2) r
  have hI (p : c'.2 ∧ d'.2 ∧ e'.2 ∧ f'.2) (r : fusedInRange .right fl 1 c'.1 f'.1 d'.1 e'.1) :=
    val_right_im h (hc p.1) (hf p.2.2.2) (hd p.2.1) (he p.2.2.1) r
  refine ⟨?_, ?_, ?_, ?_⟩ <;> rintro ⟨p1, p2, p3, p4, p5, p6, r1, r2, r3, r4, r5, r6⟩
  · exact val_add h (ha p1) (hR ⟨p3, p4, p5, p6⟩ r1) r3
  · exact val_add h (hb p2) (hI ⟨p3, p4, p5, p6⟩ r2) r4
  · exact val_sub h (ha p1) (hR ⟨p3, p4, p5, p6⟩ r1) r5
  · exact val_sub h (hb p2) (hI ⟨p3, p4, p5, p6⟩ r2) r6

theorem rel_fwdNeighbours (h : RoundsAs F fl) :
    RelB HoldsVal HoldsVal (fwdNeighbours F) (watch (fwdInRange .left fl) (fwdButterflyFl (Arith.ofFl .avx2 fl).atNear)) := by
  intro a b c d e f a' b' c' d' e' f' ha hb hc hd he hf
  have hR (p : c'.2 ∧ d'.2 ∧ e'.2 ∧ f'.2) (r : fusedInRange .left fl (-1) c'.1 e'.1 d'.1 f'.1) :
      IsVal (F.sub 0 (F.fms c e (F.mul d f))) (-fused .left fl (-1) c'.1 e'.1 d'.1 f'.1) :=
    have v := val_left_re h (hc p.1) (he p.2.2.1) (hd p.2.1) (hf p.2.2.2) r
    val_neg h v.1 v.2
  have hI (p : c'.2 ∧ d'.2 ∧ e'.2 ∧ f'.2) (r : fusedInRange .left fl 1 c'.1 f'.1 d'.1 e'.1) :
      IsVal (F.sub 0 (F.fma c f (F.mul d e))) (-fused .left fl 1 c'.1 f'.1 d'.1 e'.1) :=
    have v := val_left_im h (hc p.1) (hf p.2.2.2) (hd p.2.1) (he p.2.2.1) r
    val_neg h v.1 v.2
  refine ⟨?_, ?_, ?_, ?_⟩ <;> rintro ⟨p1, p2, p3, p4, p5, p6, r1, r2, r3, r4, r5, r6⟩
  · have := val_sub h (ha p1) (hR ⟨p3, p4, p5, p6⟩ r1) (by rw [sub_neg_eq_add]; exact r3)
    rwa [sub_neg_eq_add] at this
  · have := val_sub h (hb p2) (hI ⟨p3, p4, p5, p6⟩ r2) (by rw [sub_neg_eq_add]; exact r4)
    rwa [sub_neg_eq_add] at this
  · have := val_add h (ha p1) (hR ⟨p3, p4, p5, p6⟩ r1) (by rw [← sub_eq_add_neg]; exact r5)
    rwa [← sub_eq_add_neg] at this
  · have := val_add h (hb p2) (hI ⟨p3, p4, p5, p6⟩ r2) (by rw [← sub_eq_add_neg]; exact r6)
    rwa [← sub_eq_add_neg] at this

theorem rel_invRow (h : RoundsAs F fl) :
    RelB HoldsVal HoldsVal (invRow F) (watch (invInRange .right fl) (invButterflyFl (.ofFl .avx2 fl))) := by
  intro a b c d e f a' b' c' d' e' f' ha hb hc hd he hf
  refine ⟨?_, ?_, ?_, ?_⟩ <;> rintro ⟨p1, p2, p3, p4, p5, p6, r1, r2, r3, r4, r5, r6⟩
  · exact val_add h (ha p1) (hc p3) r1
  · exact val_add h (hb p2) (hd p4) r2
  · exact val_right_re h (val_sub h (ha p1) (hc p3) r3) (he p5) (val_sub h (hb p2) (hd p4) r4) (hf p6) r5
  · exact val_right_im h (val_sub h (ha p1) (hc p3) r3) (hf p6) (val_sub h (hb p2) (hd p4) r4) (he p5) r6

theorem rel_invNeighbours (h : RoundsAs F fl) :
    RelB HoldsVal HoldsVal (invNeighbours F) (watch (invInRange .left fl) (invButterflyFl (Arith.ofFl .avx2 fl).atNear)) := by
  intro a b c d e f a' b' c' d' e' f' ha hb hc hd he hf
  refine ⟨?_, ?_, ?_, ?_⟩ <;> rintro ⟨p1, p2, p3, p4, p5, p6, r1, r2, r3, r4, r5, r6⟩
  · exact val_add h (ha p1) (hc p3) r1
  · exact val_add h (hb p2) (hd p4) r2
  · exact (val_left_re h (val_sub h (ha p1) (hc p3) r3) (he p5) (val_sub h (hb p2) (hd p4) r4) (hf p6) r5).1
  · exact (val_left_im h (val_sub h (ha p1) (hc p3) r3) (hf p6) (val_sub h (hb p2) (hd p4) r4) (he p5) r6).1

/-- Watching does not change the numbers. -/
theorem rel_watch (S : ℝ → ℝ → ℝ → ℝ → ℝ → ℝ → Prop) (B : ℝ → ℝ → ℝ → ℝ → ℝ → ℝ → ℝ × ℝ × ℝ × ℝ) :
    RelB (fun (r : ℝ) (q : ℝ × Prop) => q.1 = r) (fun (r : ℝ) (q : ℝ × Prop) => q.1 = r) B (watch S B) := by
  rintro a b c d e f a' b' c' d' e' f' rfl rfl rfl rfl rfl rfl
  exact ⟨rfl, rfl, rfl, rfl⟩

/-! ### Dyadic numbers stay in range -/

theorem Dy.mono {K g K' g' : ℤ} {v : ℝ} (h : Dy K g v) (hK : K ≤ K') (hg : g ≤ g') : Dy K' g' v := by
  obtain ⟨h1, n, rfl⟩ := h
  refine ⟨h1.trans (zpow_le_zpow_right₀ (by norm_num) hK), n * 2 ^ (g' - g).toNat, ?_⟩
  have e : ((2 ^ (g' - g).toNat : ℤ) : ℝ) = 2 ^ (g' - g) := by
    push_cast; rw [← zpow_natCast, Int.toNat_of_nonneg (by omega)]
  rw [Int.cast_mul, e, mul_assoc, ← zpow_add₀ (by norm_num)]; congr 2; ring

theorem Dy.mul {K g K' g' : ℤ} {v w : ℝ} (h : Dy K g v) (h' : Dy K' g' w) : Dy (K + K') (g + g') (v * w) := by
  obtain ⟨h1, n, rfl⟩ := h; obtain ⟨h2, n', rfl⟩ := h'
  refine ⟨?_, n * n', ?_⟩
  · rw [abs_mul, zpow_add₀ (by norm_num)]; exact mul_le_mul h1 h2 (abs_nonneg _) (by positivity)
  · rw [neg_add, zpow_add₀ (by norm_num)]; push_cast; ring

theorem Dy.add {K g : ℤ} {v w : ℝ} (h : Dy K g v) (h' : Dy K g w) : Dy (K + 1) g (v + w) := by
  obtain ⟨h1, n, rfl⟩ := h; obtain ⟨h2, n', rfl⟩ := h'
  refine ⟨(abs_add_le _ _).trans ?_, n + n', by push_cast; ring⟩
  rw [zpow_add_one₀ (by norm_num)]; linarith

theorem Dy.neg {K g : ℤ} {v : ℝ} (h : Dy K g v) : Dy K g (-v) := by
  obtain ⟨h1, n, rfl⟩ := h
  exact ⟨by rwa [abs_neg], -n, by push_cast; ring⟩

theorem Dy.sub {K g : ℤ} {v w : ℝ} (h : Dy K g v) (h' : Dy K g w) : Dy (K + 1) g (v - w) := by
  rw [sub_eq_add_neg]; exact h.add h'.neg

theorem Dy.range {K g : ℤ} {v : ℝ} (h : Dy K g v) (hK : K ≤ 1023) (hg : g ≤ 1074) : InRange v :=
  have h := h.mono hK hg
  ⟨h.1, Or.inr h.2⟩

/-- Rounding leaves the grid alone. -/
theorem Dy.round {K g : ℤ} {v : ℝ} (h : Dy K g v) (hf : ∀ x, IsFloat (fl x)) (he : ∀ x, IsFloat x → fl x = x)
    (hu : ∀ x, |fl x - x| ≤ 2⁻¹ ^ 53 * |x|) : Dy (K + 1) g (fl v) := by
  have hb := hu v
  refine ⟨?_, ?_⟩
  · have h1 := abs_sub_abs_le_abs_sub (fl v) v
    have h2 := mul_le_mul_of_nonneg_right (show (2⁻¹ : ℝ) ^ 53 ≤ 1 by norm_num) (abs_nonneg v)
    rw [zpow_add_one₀ (by norm_num)]; linarith [h.1]
  · obtain ⟨-, n, rfl⟩ := h
    by_cases hn : |n| ≤ 2 ^ 53
    · exact ⟨n, he _ ⟨n, -g, hn, rfl⟩⟩
    · obtain ⟨m, s, hm, e⟩ := hf (n * 2 ^ (-g))
      rw [e] at hb ⊢
      have hG : (0 : ℝ) < 2 ^ (-g) := by positivity
      have hs : -g ≤ s := by
        by_contra hc
        have h3 : (2 : ℝ) ^ s ≤ 2 ^ (-g - 1) := zpow_le_zpow_right₀ (by norm_num) (by omega)
        rw [zpow_sub_one₀ (by norm_num)] at h3
        have hm' : |(m : ℝ)| ≤ 2 ^ 53 := by exact_mod_cast hm
        have hn' : (2 : ℝ) ^ 53 ≤ |(n : ℝ)| := by
          have : (2 : ℤ) ^ 53 ≤ |n| := by omega
          exact_mod_cast this
        have h4 : |(m : ℝ) * 2 ^ s| ≤ 2 ^ 52 * 2 ^ (-g) := by
          rw [abs_mul, abs_of_pos (show (0 : ℝ) < 2 ^ s by positivity)]
          calc |(m : ℝ)| * 2 ^ s ≤ 2 ^ 53 * (2 ^ (-g) * 2⁻¹) := mul_le_mul hm' h3 (by positivity) (by positivity)
            _ = 2 ^ 52 * 2 ^ (-g) := by ring
        have h5 := abs_sub_abs_le_abs_sub ((n : ℝ) * 2 ^ (-g)) (m * 2 ^ s)
        rw [abs_sub_comm] at hb
        rw [abs_mul, abs_of_pos hG] at h5 hb
        have h6 := mul_le_mul_of_nonneg_right hn' hG.le
        have h7 : (2⁻¹ : ℝ) ^ 53 * (|(n : ℝ)| * 2 ^ (-g)) ≤ 1 / 4 * (|(n : ℝ)| * 2 ^ (-g)) :=
          mul_le_mul_of_nonneg_right (by norm_num) (by positivity)
        nlinarith
      refine ⟨m * 2 ^ (s + g).toNat, ?_⟩
      have e : ((2 ^ (s + g).toNat : ℤ) : ℝ) = 2 ^ (s + g) := by
        push_cast; rw [← zpow_natCast, Int.toNat_of_nonneg (by omega)]
      rw [Int.cast_mul, e, mul_assoc, ← zpow_add₀ (by norm_num)]; congr 2; ring

section Grade
variable (hf : ∀ x, IsFloat (fl x)) (he : ∀ x, IsFloat x → fl x = x) (hu : ∀ x, |fl x - x| ≤ 2⁻¹ ^ 53 * |x|)
include hf he hu

theorem dy_fused (f : Fma) {K g b : ℤ} {σ x y z t : ℝ} (hσ : σ = 1 ∨ σ = -1) (hx : Dy K g x) (hy : Dy 1 b y) (hz : Dy K g z) (ht : Dy 1 b t) :
    Dy (K + 4) (g + b) (fused f fl σ x y z t) ∧ (K + 4 ≤ 1023 → g + b ≤ 1074 → fusedInRange f fl σ x y z t) := by
  have hs {K g : ℤ} {v : ℝ} (h : Dy K g v) : Dy K g (σ * v) := by
    rcases hσ with rfl | rfl
    · rwa [one_mul]
    · rw [neg_one_mul]; exact h.neg
  have h1 : Dy (K + 1) (g + b) (x * y) := hx.mul hy
  have h2 : Dy (K + 1) (g + b) (z * t) := hz.mul ht
  have h3 := h1.round hf he hu
  have h4 := h2.round hf he hu
  have m1 := h1.mono (K' := K + 1 + 1) (by omega) le_rfl
  have m2 := h2.mono (K' := K + 1 + 1) (by omega) le_rfl
  cases f with
  | none =>
    have h5 := h3.add (hs h4)
    exact ⟨(h5.round hf he hu).mono (by omega) le_rfl, fun _ _ => ⟨h1.range (by omega) (by omega), h2.range (by omega) (by omega), h5.range (by omega) (by omega)⟩⟩
  | left =>
    have h5 := m1.add (hs h4)
    exact ⟨(h5.round hf he hu).mono (by omega) le_rfl, fun _ _ => ⟨h2.range (by omega) (by omega), h5.range (by omega) (by omega)⟩⟩
  | right =>
    have h5 := h3.add (hs m2)
    exact ⟨(h5.round hf he hu).mono (by omega) le_rfl, fun _ _ => ⟨h1.range (by omega) (by omega), h5.range (by omega) (by omega)⟩⟩

/-- Counts the stages. -/
def countB (uR uI vR vI _wR _wI : ℝ) : ℝ × ℝ × ℝ × ℝ :=
  let c := 1 + max (max uR uI) (max vR vI)
  (c, c, c, c)

/-- After `c` stages: in range so far, and on the grid of the stage. -/
def Grade (K g b : ℤ) (S : ℕ) (q : ℝ × Prop) (c : ℝ) : Prop :=
  0 ≤ c ∧ ∀ s : ℕ, c ≤ s → s ≤ S → q.2 ∧ Dy (K + 6 * s) (g + b * s) q.1

omit hf he hu in
theorem grade_step {K g b : ℤ} {S : ℕ} {B : ℝ → ℝ → ℝ → ℝ → ℝ → ℝ → ℝ × ℝ × ℝ × ℝ} {In : ℝ → ℝ → ℝ → ℝ → ℝ → ℝ → Prop}
    (hB : ∀ (K g : ℤ) uR uI vR vI wR wI, Dy K g uR → Dy K g uI → Dy K g vR → Dy K g vI → Dy 1 b wR → Dy 1 b wI →
      Dy (K + 6) (g + b) (B uR uI vR vI wR wI).1 ∧ Dy (K + 6) (g + b) (B uR uI vR vI wR wI).2.1 ∧
      Dy (K + 6) (g + b) (B uR uI vR vI wR wI).2.2.1 ∧ Dy (K + 6) (g + b) (B uR uI vR vI wR wI).2.2.2 ∧
      (K + 6 ≤ 1023 → g + b ≤ 1074 → In uR uI vR vI wR wI))
    (hb : 0 ≤ b) (hK : K + 6 * S ≤ 1023) (hg : g + b * S ≤ 1074) :
    RelB (Grade K g b S) (fun q _ => q.2 ∧ Dy 1 b q.1) (watch In B) countB := by
  rintro a1 a2 a3 a4 w1 w2 c1 c2 c3 c4 - - ⟨n1, h1⟩ ⟨n2, h2⟩ ⟨n3, h3⟩ ⟨n4, h4⟩ ⟨t1, d1⟩ ⟨t2, d2⟩
  have key : ∀ s : ℕ, 1 + max (max c1 c2) (max c3 c4) ≤ s → s ≤ S →
      (a1.2 ∧ a2.2 ∧ a3.2 ∧ a4.2 ∧ w1.2 ∧ w2.2 ∧ In a1.1 a2.1 a3.1 a4.1 w1.1 w2.1) ∧
      Dy (K + 6 * s) (g + b * s) (B a1.1 a2.1 a3.1 a4.1 w1.1 w2.1).1 ∧ Dy (K + 6 * s) (g + b * s) (B a1.1 a2.1 a3.1 a4.1 w1.1 w2.1).2.1 ∧
      Dy (K + 6 * s) (g + b * s) (B a1.1 a2.1 a3.1 a4.1 w1.1 w2.1).2.2.1 ∧ Dy (K + 6 * s) (g + b * s) (B a1.1 a2.1 a3.1 a4.1 w1.1 w2.1).2.2.2 := by
    intro s hc hs
    have hm1 : c1 ≤ max (max c1 c2) (max c3 c4) := (le_max_left _ _).trans (le_max_left _ _)
    have hm2 : c2 ≤ max (max c1 c2) (max c3 c4) := (le_max_right _ _).trans (le_max_left _ _)
    have hm3 : c3 ≤ max (max c1 c2) (max c3 c4) := (le_max_left _ _).trans (le_max_right _ _)
    have hm4 : c4 ≤ max (max c1 c2) (max c3 c4) := (le_max_right _ _).trans (le_max_right _ _)
    obtain ⟨s, rfl⟩ : ∃ s', s = s' + 1 := by
      cases s with
      | zero => norm_num at hc; linarith
      | succ s => exact ⟨s, rfl⟩
    push_cast at hc ⊢
    obtain ⟨q1, e1⟩ := h1 s (by linarith) (by omega)
    obtain ⟨q2, e2⟩ := h2 s (by linarith) (by omega)
    obtain ⟨q3, e3⟩ := h3 s (by linarith) (by omega)
    obtain ⟨q4, e4⟩ := h4 s (by linarith) (by omega)
    obtain ⟨r1, r2, r3, r4, r5⟩ := hB _ _ _ _ _ _ _ _ e1 e2 e3 e4 d1 d2
    have eK : K + 6 * (s : ℤ) + 6 = K + 6 * (s + 1) := by ring
    have eg : g + b * (s : ℤ) + b = g + b * (s + 1) := by ring
    rw [eK, eg] at r1 r2 r3 r4 r5
    have hs' : ((s : ℤ) + 1) ≤ S := by exact_mod_cast hs
    have : b * ((s : ℤ) + 1) ≤ b * S := mul_le_mul_of_nonneg_left hs' hb
    exact ⟨⟨q1, q2, q3, q4, t1, t2, r5 (by omega) (by omega)⟩, r1, r2, r3, r4⟩
  have h0 : 0 ≤ 1 + max (max c1 c2) (max c3 c4) := by
    have : c1 ≤ max (max c1 c2) (max c3 c4) := (le_max_left _ _).trans (le_max_left _ _)
    linarith
  exact ⟨⟨h0, fun s hc hs => ⟨(key s hc hs).1, (key s hc hs).2.1⟩⟩, ⟨h0, fun s hc hs => ⟨(key s hc hs).1, (key s hc hs).2.2.1⟩⟩,
    ⟨h0, fun s hc hs => ⟨(key s hc hs).1, (key s hc hs).2.2.2.1⟩⟩, ⟨h0, fun s hc hs => ⟨(key s hc hs).1, (key s hc hs).2.2.2.2⟩⟩⟩

theorem dy_fwd (f : Fma) {A : Arith} (h1 : A.mulSub = fused f fl (-1)) (h2 : A.mulAdd = fused f fl 1) (h3 : A.add = fun x y => fl (x + y))
    (h4 : A.sub = fun x y => fl (x - y)) {b : ℤ} (hb : 0 ≤ b) (K g : ℤ) (uR uI vR vI wR wI : ℝ) (d1 : Dy K g uR) (d2 : Dy K g uI) (d3 : Dy K g vR) (d4 : Dy K g vI)
    (d5 : Dy 1 b wR) (d6 : Dy 1 b wI) :
    Dy (K + 6) (g + b) (fwdButterflyFl A uR uI vR vI wR wI).1 ∧ Dy (K + 6) (g + b) (fwdButterflyFl A uR uI vR vI wR wI).2.1 ∧
      Dy (K + 6) (g + b) (fwdButterflyFl A uR uI vR vI wR wI).2.2.1 ∧ Dy (K + 6) (g + b) (fwdButterflyFl A uR uI vR vI wR wI).2.2.2 ∧
      (K + 6 ≤ 1023 → g + b ≤ 1074 → fwdInRange f fl uR uI vR vI wR wI) := by
  simp only [fwdButterflyFl, h1, h2, h3, h4]
  obtain ⟨p1, r1⟩ := dy_fused hf he hu f (σ := -1) (Or.inr rfl) d3 d5 d4 d6
  obtain ⟨p2, r2⟩ := dy_fused hf he hu f (σ := 1) (Or.inl rfl) d3 d6 d4 d5
  have u1 := d1.mono (K' := K + 4) (g' := g + b) (by omega) (by omega)
  have u2 := d2.mono (K' := K + 4) (g' := g + b) (by omega) (by omega)
  have a1 := u1.add p1
  have a2 := u2.add p2
  have a3 := u1.sub p1
  have a4 := u2.sub p2
  refine ⟨(a1.round hf he hu).mono (by omega) le_rfl, (a2.round hf he hu).mono (by omega) le_rfl, (a3.round hf he hu).mono (by omega) le_rfl,
    (a4.round hf he hu).mono (by omega) le_rfl, fun hK hg => ⟨r1 (by omega) hg, r2 (by omega) hg, ?_, ?_, ?_, ?_⟩⟩
  · exact a1.range (by omega) hg
  · exact a2.range (by omega) hg
  · exact a3.range (by omega) hg
  · exact a4.range (by omega) hg

theorem dy_inv (f : Fma) {A : Arith} (h1 : A.mulSub = fused f fl (-1)) (h2 : A.mulAdd = fused f fl 1) (h3 : A.add = fun x y => fl (x + y))
    (h4 : A.sub = fun x y => fl (x - y)) {b : ℤ} (hb : 0 ≤ b) (K g : ℤ) (uR uI vR vI wR wI : ℝ) (d1 : Dy K g uR) (d2 : Dy K g uI) (d3 : Dy K g vR) (d4 : Dy K g vI)
    (d5 : Dy 1 b wR) (d6 : Dy 1 b wI) :
    Dy (K + 6) (g + b) (invButterflyFl A uR uI vR vI wR wI).1 ∧ Dy (K + 6) (g + b) (invButterflyFl A uR uI vR vI wR wI).2.1 ∧
      Dy (K + 6) (g + b) (invButterflyFl A uR uI vR vI wR wI).2.2.1 ∧ Dy (K + 6) (g + b) (invButterflyFl A uR uI vR vI wR wI).2.2.2 ∧
      (K + 6 ≤ 1023 → g + b ≤ 1074 → invInRange f fl uR uI vR vI wR wI) := by
  simp only [invButterflyFl, h1, h2, h3, h4]
  have a1 := d1.add d3
  have a2 := d2.add d4
  have a3 := d1.sub d3
  have a4 := d2.sub d4
  have f3 := a3.round hf he hu
  have f4 := a4.round hf he hu
  obtain ⟨p1, r1⟩ := dy_fused hf he hu f (σ := -1) (Or.inr rfl) f3 d5 f4 d6
  obtain ⟨p2, r2⟩ := dy_fused hf he hu f (σ := 1) (Or.inl rfl) f3 d6 f4 d5
  refine ⟨(a1.round hf he hu).mono (by omega) (by omega), (a2.round hf he hu).mono (by omega) (by omega), p1.mono (by omega) le_rfl,
    p2.mono (by omega) le_rfl, fun hK hg => ⟨?_, ?_, ?_, ?_, r1 (by omega) hg, r2 (by omega) hg⟩⟩
  · exact a1.range (by omega) (by omega)
  · exact a2.range (by omega) (by omega)
  · exact a3.range (by omega) (by omega)
  · exact a4.range (by omega) (by omega)

end Grade

end Asm

namespace Fft
open Asm

/-- `countB` on complex numbers. -/
noncomputable def countC (u v _w : ℂ) : ℂ × ℂ :=
  let c := 1 + max (max u.re u.im) (max v.re v.im)
  (⟨c, c⟩, ⟨c, c⟩)

theorem rep_count : Rep countB countC := fun _ _ _ _ _ _ => rfl

theorem stg_count {n : ℝ} {w : ℕ → ℂ} {h : ℕ} {z : ℕ → ℂ} (hz : ∀ p, (z p).re ≤ n ∧ (z p).im ≤ n) (p : ℕ) :
    (stg countC w h z p).re ≤ n + 1 ∧ (stg countC w h z p).im ≤ n + 1 := by
  have key (u v w : ℂ) (h1 : u.re ≤ n ∧ u.im ≤ n) (h2 : v.re ≤ n ∧ v.im ≤ n) : 1 + max (max u.re u.im) (max v.re v.im) ≤ n + 1 := by
    have := max_le (max_le h1.1 h1.2) (max_le h2.1 h2.2); linarith
  unfold stg
  split
  · exact ⟨key _ _ 0 (hz _) (hz _), key _ _ 0 (hz _) (hz _)⟩
  · exact ⟨key _ _ 0 (hz _) (hz _), key _ _ 0 (hz _) (hz _)⟩

theorem after_count (L : ℕ) (W : ℕ → ℕ → ℂ) (s : ℕ) : ∀ p, (after countC L W (fun _ => 0) s p).re ≤ s ∧ (after countC L W (fun _ => 0) s p).im ≤ s := by
  induction s with
  | zero => simp [after]
  | succ s ih => intro p; push_cast; exact stg_count ih p

theorem invAfter_count (V : ℕ → ℕ → ℂ) (s : ℕ) : ∀ p, (invAfter (fun _ => countC) V (fun _ => 0) s p).re ≤ s ∧
    (invAfter (fun _ => countC) V (fun _ => 0) s p).im ≤ s := by
  induction s with
  | zero => simp [invAfter]
  | succ s ih => intro p; push_cast; exact stg_count ih p

theorem idx_pos {N j : ℕ} (hN : N % 8 = 0) (hj : j < N) : (∃ p, p < N / 2 ∧ (j = pos p ∨ j = pos p + 4)) := by
  refine ⟨4 * (j / 8) + j % 4, by omega, ?_⟩
  unfold pos; omega

/-- `l + 3` stages. -/
theorem count_fwd (l : ℕ) (tw : ℕ → ℝ × ℝ) (j : ℕ) (hj : j < 2 ^ (l + 4)) :
    fwdFFTStages countB countB (2 ^ (l + 4)) (fun _ => 0) tw j ≤ (l + 3 : ℕ) := by
  have hv := view_fwdFFTStages l (fun s i => toC (tw (2 ^ s - 1 + i))) rep_count tw (fun _ _ _ _ => rfl) (fun _ => 0) rep_count (fun _ => 0)
    (fun _ _ => rfl)
  obtain ⟨p, hp, h⟩ := idx_pos (by rw [pow_add]; omega) hj
  have hp : p < 2 ^ (l + 3) := by rw [pow_succ] at hp; omega
  have h1 := hv p hp
  have h2 := stg_count (w := fun i => toC (tw (2 ^ (l + 2) - 1 + i))) (h := 2 ^ 0) (after_count (l + 3) (fun s i => toC (tw (2 ^ s - 1 + i))) (l + 2)) p
  rw [← h1] at h2
  push_cast at h2 ⊢
  rcases h with rfl | rfl
  · exact h2.1.trans (by linarith)
  · exact h2.2.trans (by linarith)

theorem count_inv (l : ℕ) (tw : ℕ → ℝ × ℝ) (j : ℕ) (hj : j < 2 ^ (l + 4)) :
    invFFTStages countB countB (fun c => c) (2 ^ (l + 4)) (fun _ => 0) tw j ≤ (l + 3 : ℕ) := by
  have hv := view_invFFTStages rep_count rep_count l tw (fun _ => 0) (fun c => c) (fun _ => 0) (fun _ _ => rfl)
  have ea : atStage countC countC = fun _ => countC := by funext n; cases n <;> rfl
  obtain ⟨p, hp, h⟩ := idx_pos (by rw [pow_add]; omega) hj
  have hp : p < 2 ^ (l + 3) := by rw [pow_succ] at hp; omega
  have h1 := hv p hp
  rw [ea] at h1
  have h2 := invAfter_count (invFactor l tw) (l + 3) p
  rcases h with rfl | rfl
  · exact (congrArg Complex.re h1).trans_le h2.1
  · exact (congrArg Complex.im h1).trans_le h2.2

end Fft
end Tfhe
