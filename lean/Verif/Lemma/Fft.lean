import Verif.Model.FftStages
import Mathlib.Analysis.SpecialFunctions.Trigonometric.Basic
import Mathlib.Tactic.Ring
import Mathlib.Tactic.LinearCombination
import Mathlib.Algebra.BigOperators.Ring.Finset

/-!
# The stages of the transform, seen as operations on complex vectors
-/
namespace Tfhe.Fft
open Tfhe

/-- A pair of `float64` as a complex number. -/
def toC (z : ℝ × ℝ) : ℂ := ⟨z.1, z.2⟩

/-- Where the real part of complex number `a` is stored; the imaginary part is four places after it. -/
def pos (a : ℕ) : ℕ := 8 * (a / 4) + a % 4

/-- A vector of floats as a vector of complex numbers. -/
noncomputable def view (x : ℕ → ℝ) (a : ℕ) : ℂ := ⟨x (pos a), x (pos a + 4)⟩

theorem pos_inj {a b : ℕ} (h : pos a = pos b) : a = b := by unfold pos at h; omega
theorem pos_ne4 (a b : ℕ) : pos a ≠ pos b + 4 := by unfold pos; omega

/-- Two updates of a complex vector. -/
def upd2 (z : ℕ → ℂ) (a b : ℕ) (y : ℂ × ℂ) : ℕ → ℂ := upd (upd z a y.1) b y.2

/-- The forward butterfly. -/
def bF (u v w : ℂ) : ℂ × ℂ := (u + v * w, u - v * w)
/-- The inverse butterfly. -/
def bI (u v w : ℂ) : ℂ × ℂ := (u + v, (u - v) * w)

/-- `B'` is `B` on pairs. -/
def Rep (B : ℝ → ℝ → ℝ → ℝ → ℝ → ℝ → ℝ × ℝ × ℝ × ℝ) (B' : ℂ → ℂ → ℂ → ℂ × ℂ) : Prop :=
  ∀ a b c d e f, B' ⟨a, b⟩ ⟨c, d⟩ ⟨e, f⟩ =
    (⟨(B a b c d e f).1, (B a b c d e f).2.1⟩, ⟨(B a b c d e f).2.2.1, (B a b c d e f).2.2.2⟩)

theorem repr_fwd : Rep fwdButterfly bF := by
  intro a b c d e f
  apply Prod.ext <;> apply Complex.ext <;> simp [bF, fwdButterfly]

theorem repr_inv : Rep invButterfly bI := by
  intro a b c d e f
  apply Prod.ext <;> apply Complex.ext <;> simp [bI, invButterfly]

theorem view_bf {B B'} (hB : Rep B B') (x : ℕ → ℝ) (a b : ℕ) (hab : a ≠ b) (w : ℝ × ℝ)
    {a0 a1 b0 b1 : ℕ} (ha0 : a0 = pos a) (ha1 : a1 = pos a + 4) (hb0 : b0 = pos b) (hb1 : b1 = pos b + 4) :
    view (bf B x a0 a1 b0 b1 w) = upd2 (view x) a b (B' (view x a) (view x b) (toC w)) := by
  subst ha0 ha1 hb0 hb1
  have hpab : pos a ≠ pos b := fun h => hab (pos_inj h)
  funext c
  have e : B' (view x a) (view x b) (toC w) = _ := hB _ _ _ _ _ _
  rw [e]
  simp only [view, bf, upd2, upd]
  by_cases hcb : c = b
  · subst hcb
    simp
  · have hpcb : pos c ≠ pos b := fun h => hcb (pos_inj h)
    by_cases hca : c = a
    · subst hca
      simp [pos_ne4, (pos_ne4 _ _).symm, hcb, hpcb]
    · have hpca : pos c ≠ pos a := fun h => hca (pos_inj h)
      simp [pos_ne4, (pos_ne4 _ _).symm, hcb, hpcb, hca, hpca]

/-- A loop of butterflies over pairs. -/
def run (B : ℂ → ℂ → ℂ → ℂ × ℂ) (f g : ℕ → ℕ) (w : ℕ → ℂ) (n : ℕ) (z : ℕ → ℂ) : ℕ → ℂ :=
  (List.range n).foldl (fun z q => upd2 z (f q) (g q) (B (z (f q)) (z (g q)) (w q))) z

theorem run_spec (B : ℂ → ℂ → ℂ → ℂ × ℂ) (f g : ℕ → ℕ) (w : ℕ → ℂ) (n : ℕ) (z : ℕ → ℂ)
    (hf : ∀ p q, f p = f q → p = q) (hg : ∀ p q, g p = g q → p = q) (hfg : ∀ p q, f p ≠ g q) (q : ℕ) :
    run B f g w n z (f q) = (if q < n then (B (z (f q)) (z (g q)) (w q)).1 else z (f q)) ∧
    run B f g w n z (g q) = (if q < n then (B (z (f q)) (z (g q)) (w q)).2 else z (g q)) := by
  induction n generalizing q with
  | zero => simp [run]
  | succ n ih =>
    have hs : run B f g w (n + 1) z = upd2 (run B f g w n z) (f n) (g n)
        (B (run B f g w n z (f n)) (run B f g w n z (g n)) (w n)) := by
      simp [run, List.range_succ, List.foldl_append]
    rw [hs]
    obtain ⟨h1, h2⟩ := ih n
    obtain ⟨h3, h4⟩ := ih q
    rw [h1, h2]
    simp only [lt_irrefl, if_false]
    by_cases hq : q = n
    · subst hq
      simp [upd2, upd, hfg]
    · have hfq : f q ≠ f n := fun h => hq (hf _ _ h)
      have hgq : g q ≠ g n := fun h => hq (hg _ _ h)
      have e : (q < n + 1) = (q < n) := by simp; omega
      simp only [upd2, upd, hfg, (hfg _ _).symm, hfq, hgq, if_false, h3, h4, e]
      exact ⟨trivial, trivial⟩

/-- What a stage computes: in blocks of `2 * h`, element `u` with element `u + h`, twiddle factor `i` for block `i`. -/
def stg (B : ℂ → ℂ → ℂ → ℂ × ℂ) (w : ℕ → ℂ) (h : ℕ) (z : ℕ → ℂ) (p : ℕ) : ℂ :=
  if p % (2 * h) < h then (B (z p) (z (p + h)) (w (p / (2 * h)))).1
  else (B (z (p - h)) (z p) (w (p / (2 * h)))).2

theorem stg_congr (B : ℂ → ℂ → ℂ → ℂ × ℂ) (w w' : ℕ → ℂ) (h n : ℕ) (z z' : ℕ → ℂ)
    (hz : ∀ p < 2 * h * n, z p = z' p) (hw : ∀ i < n, w i = w' i) (p : ℕ) (hp : p < 2 * h * n) :
    stg B w h z p = stg B w' h z' p := by
  have hh : 0 < 2 * h := Nat.pos_of_ne_zero (by rintro e; rw [e] at hp; omega)
  have hi : p / (2 * h) < n := Nat.div_lt_of_lt_mul hp
  have hm := Nat.div_add_mod p (2 * h)
  unfold stg
  split
  · rename_i hr
    have : p + h < 2 * h * n := by
      calc p + h < 2 * h * (p / (2 * h)) + 2 * h := by omega
        _ = 2 * h * (p / (2 * h) + 1) := by ring
        _ ≤ 2 * h * n := Nat.mul_le_mul_left _ hi
    rw [hz p hp, hz _ this, hw _ hi]
  · rw [hz p hp, hz (p - h) (by omega), hw _ hi]

theorem run_stg (B : ℂ → ℂ → ℂ → ℂ × ℂ) (w : ℕ → ℂ) (h n : ℕ) (hh : 0 < h) (z : ℕ → ℂ) (p : ℕ)
    (hp : p < 2 * h * n) :
    run B (fun q => 2 * h * (q / h) + q % h) (fun q => 2 * h * (q / h) + q % h + h) (fun q => w (q / h)) (n * h) z p =
      stg B w h z p := by
  have key : ∀ q, q % h < h := fun q => Nat.mod_lt _ hh
  have hd : ∀ i r, r < 2 * h → (2 * h * i + r) / (2 * h) = i := fun i r hr => by
    rw [Nat.mul_add_div (by omega), Nat.div_eq_of_lt hr, add_zero]
  have hmd : ∀ i r, r < 2 * h → (2 * h * i + r) % (2 * h) = r := fun i r hr => by
    rw [Nat.mul_add_mod, Nat.mod_eq_of_lt hr]
  have inj : ∀ p q r s, r < 2 * h → s < 2 * h → 2 * h * p + r = 2 * h * q + s → p = q ∧ r = s := by
    intro p q r s hr hs e
    have := congrArg (· / (2 * h)) e
    have e2 := congrArg (· % (2 * h)) e
    simp only [hd _ _ hr, hd _ _ hs, hmd _ _ hr, hmd _ _ hs] at this e2
    exact ⟨this, e2⟩
  have hf : ∀ p q, 2 * h * (p / h) + p % h = 2 * h * (q / h) + q % h → p = q := by
    intro p q e
    obtain ⟨e1, e2⟩ := inj _ _ _ _ (by have := key p; omega) (by have := key q; omega) e
    rw [← Nat.div_add_mod p h, ← Nat.div_add_mod q h, e1, e2]
  have hs := fun q => run_spec B (fun q => 2 * h * (q / h) + q % h) (fun q => 2 * h * (q / h) + q % h + h)
    (fun q => w (q / h)) (n * h) z hf (fun p q e => hf p q (by simpa using e)) (fun p q e => by
      rw [add_assoc] at e
      obtain ⟨e1, e2⟩ := inj _ _ _ _ (by have := key p; omega) (by have := key q; omega) e
      have := key p; omega) q
  have hi : p / (2 * h) < n := Nat.div_lt_of_lt_mul hp
  have hm := Nat.div_add_mod p (2 * h)
  have hml := Nat.mod_lt p (show 0 < 2 * h by omega)
  generalize p / (2 * h) = i at *
  generalize p % (2 * h) = r at *
  subst hm
  unfold stg
  rw [hd _ _ hml, hmd _ _ hml]
  by_cases hr : r < h
  · have h1 : (h * i + r) / h = i := by rw [Nat.mul_add_div hh, Nat.div_eq_of_lt hr, add_zero]
    have h2 : (h * i + r) % h = r := by rw [Nat.mul_add_mod, Nat.mod_eq_of_lt hr]
    have h3 : h * i + r < n * h := by
      calc h * i + r < h * (i + 1) := by rw [Nat.mul_succ]; omega
        _ ≤ h * n := Nat.mul_le_mul_left _ hi
        _ = n * h := Nat.mul_comm _ _
    have := (hs (h * i + r)).1
    simp only [h1, h2, h3, if_true] at this
    rw [this, if_pos hr]
  · have h1 : (h * i + (r - h)) / h = i := by rw [Nat.mul_add_div hh, Nat.div_eq_of_lt (by omega), add_zero]
    have h2 : (h * i + (r - h)) % h = r - h := by rw [Nat.mul_add_mod, Nat.mod_eq_of_lt (by omega)]
    have h3 : h * i + (r - h) < n * h := by
      calc h * i + (r - h) < h * (i + 1) := by rw [Nat.mul_succ]; omega
        _ ≤ h * n := Nat.mul_le_mul_left _ hi
        _ = n * h := Nat.mul_comm _ _
    have := (hs (h * i + (r - h))).2
    have e1 : 2 * h * i + (r - h) + h = 2 * h * i + r := by omega
    have e2 : 2 * h * i + (r - h) = 2 * h * i + r - h := by omega
    simp only [h1, h2, h3, if_true, e1] at this
    rw [this, if_neg hr, e2]

/-! ### Nested loops -/

theorem foldl_range_mul {α : Type} (f : α → ℕ → α) (n k : ℕ) (x : α) :
    (List.range (n * k)).foldl f x = (List.range n).foldl (fun x i => (List.range k).foldl (fun x j => f x (i * k + j)) x) x := by
  induction n generalizing x with
  | zero => simp
  | succ n ih =>
    rw [Nat.succ_mul, List.range_add, List.foldl_append, ih, List.range_succ, List.foldl_append, List.foldl_map]
    rfl

theorem foldl_hom {α β : Type} (v : α → β) (f : α → ℕ → α) (g : β → ℕ → β) (n : ℕ) (x : α)
    (h : ∀ x i, i < n → v (f x i) = g (v x) i) :
    v ((List.range n).foldl f x) = (List.range n).foldl g (v x) := by
  induction n with
  | zero => rfl
  | succ n ih =>
    rw [List.range_succ, List.foldl_append, List.foldl_append, ← ih (fun x i hi => h x i (by omega))]
    exact h _ _ (by omega)

theorem foldl_counter {α : Type} (f : α → ℕ → ℕ → α) (c n k0 : ℕ) (x : α) :
    (List.range n).foldl (fun (s : α × ℕ) i => (f s.1 i s.2, s.2 + c)) (x, k0) =
      ((List.range n).foldl (fun x i => f x i (k0 + c * i)) x, k0 + c * n) := by
  induction n with
  | zero => rfl
  | succ n ih =>
    rw [List.range_succ, List.foldl_append, List.foldl_append, ih]
    simp [Nat.mul_succ, add_assoc]

/-! ### The loops of the code -/

variable {B : ℝ → ℝ → ℝ → ℝ → ℝ → ℝ → ℝ × ℝ × ℝ × ℝ} {B' : ℂ → ℂ → ℂ → ℂ × ℂ}

/-- A row is `h` butterflies at distance `h`, starting from `b`. -/
theorem view_bfRow (hB : Rep B B') (x : ℕ → ℝ) (b h : ℕ) (hb : b % 4 = 0) (hh : h % 4 = 0) (w : ℝ × ℝ) :
    view (bfRow B x (2 * b) (2 * h) w) =
      (List.range h).foldl (fun z u => upd2 z (b + u) (b + u + h) (B' (z (b + u)) (z (b + u + h)) (toC w))) (view x) := by
  obtain ⟨h, rfl⟩ : ∃ k, h = k * 4 := ⟨h / 4, by omega⟩
  obtain ⟨b, rfl⟩ : ∃ k, b = 4 * k := ⟨b / 4, by omega⟩
  rw [foldl_range_mul, bfRow, show (2 * (h * 4) + 7) / 8 = h by omega]
  apply foldl_hom
  intro x J hJ
  simp only [show List.range 4 = [0, 1, 2, 3] from rfl, List.foldl_cons, List.foldl_nil, bf8]
  rw [view_bf hB _ (4 * b + (J * 4 + 3)) (4 * b + (J * 4 + 3) + h * 4) (by omega) w (by unfold pos; omega)
      (by unfold pos; omega) (by unfold pos; omega) (by unfold pos; omega),
    view_bf hB _ (4 * b + (J * 4 + 2)) (4 * b + (J * 4 + 2) + h * 4) (by omega) w (by unfold pos; omega)
      (by unfold pos; omega) (by unfold pos; omega) (by unfold pos; omega),
    view_bf hB _ (4 * b + (J * 4 + 1)) (4 * b + (J * 4 + 1) + h * 4) (by omega) w (by unfold pos; omega)
      (by unfold pos; omega) (by unfold pos; omega) (by unfold pos; omega),
    view_bf hB _ (4 * b + (J * 4 + 0)) (4 * b + (J * 4 + 0) + h * 4) (by omega) w (by unfold pos; omega)
      (by unfold pos; omega) (by unfold pos; omega) (by unfold pos; omega)]

theorem view_bfStage (hB : Rep B B') (tw : ℕ → ℝ × ℝ) (x : ℕ → ℝ) (k0 m h : ℕ) (hh : h % 4 = 0) (h0 : 0 < h) :
    (bfStage B tw m (2 * h) (x, k0)).2 = k0 + m ∧
    ∀ p < 2 * h * m, view (bfStage B tw m (2 * h) (x, k0)).1 p = stg B' (fun i => toC (tw (k0 + i))) h (view x) p := by
  have hc := foldl_counter (fun (x : ℕ → ℝ) i k => bfRow B x (2 * i * (2 * h)) (2 * h) (tw k)) 1 m k0 x
  have hc' : bfStage B tw m (2 * h) (x, k0) = _ := hc
  rw [hc']
  refine ⟨by simp, fun p hp => ?_⟩
  rw [← run_stg B' _ h m h0 _ p hp, run, foldl_range_mul]
  refine congrFun (foldl_hom view _ _ m x fun x i hi => ?_) p
  rw [show 2 * i * (2 * h) = 2 * (2 * h * i) by ring, view_bfRow hB x _ h (by
    obtain ⟨k, rfl⟩ : ∃ k, h = k * 4 := ⟨h / 4, by omega⟩
    rw [show 2 * (k * 4) * i = 4 * (2 * k * i) by ring]; omega) hh]
  have := foldl_hom (id : (ℕ → ℂ) → (ℕ → ℂ)) (fun z u => upd2 z (2 * h * i + u) (2 * h * i + u + h) (B' (z (2 * h * i + u))
    (z (2 * h * i + u + h)) (toC (tw (k0 + 1 * i))))) (fun z j => upd2 z (2 * h * ((i * h + j) / h) + (i * h + j) % h)
    (2 * h * ((i * h + j) / h) + (i * h + j) % h + h) (B' (z (2 * h * ((i * h + j) / h) + (i * h + j) % h))
    (z (2 * h * ((i * h + j) / h) + (i * h + j) % h + h)) (toC (tw (k0 + (i * h + j) / h))))) h (view x) (by
      intro z u hu
      have h1 : (i * h + u) / h = i := by rw [Nat.mul_comm i h, Nat.mul_add_div h0, Nat.div_eq_of_lt hu, add_zero]
      have h2 : (i * h + u) % h = u := by rw [Nat.mul_comm i h, Nat.mul_add_mod, Nat.mod_eq_of_lt hu]
      simp only [h1, h2, id, one_mul])
  exact this

theorem view_bfStage2 (hB : Rep B B') (tw : ℕ → ℝ × ℝ) (x : ℕ → ℝ) (k0 n : ℕ) :
    (bfStage2 B tw (8 * n) (x, k0)).2 = k0 + n ∧
    ∀ p < 2 * 2 * n, view (bfStage2 B tw (8 * n) (x, k0)).1 p = stg B' (fun i => toC (tw (k0 + i))) 2 (view x) p := by
  have hc := foldl_counter (fun (x : ℕ → ℝ) J k =>
    bf B (bf B x (8 * J) (8 * J + 4) (8 * J + 2) (8 * J + 6) (tw k)) (8 * J + 1) (8 * J + 5) (8 * J + 3) (8 * J + 7) (tw k))
    1 n k0 x
  unfold bfStage2
  rw [show (8 * n + 7) / 8 = n by omega]
  erw [hc]
  refine ⟨by simp, fun p hp => ?_⟩
  rw [← run_stg B' _ 2 n (by norm_num) _ p hp, run, foldl_range_mul]
  refine congrFun (foldl_hom view _ _ n x fun x J hJ => ?_) p
  simp only [show List.range 2 = [0, 1] from rfl, List.foldl_cons, List.foldl_nil]
  rw [show (J * 2 + 0) / 2 = J by omega, show (J * 2 + 0) % 2 = 0 by omega, show (J * 2 + 1) / 2 = J by omega,
    show (J * 2 + 1) % 2 = 1 by omega,
    view_bf hB _ (2 * 2 * J + 1) (2 * 2 * J + 1 + 2) (by omega) _ (by unfold pos; omega)
      (by unfold pos; omega) (by unfold pos; omega) (by unfold pos; omega),
    view_bf hB _ (2 * 2 * J + 0) (2 * 2 * J + 0 + 2) (by omega) _ (by unfold pos; omega)
      (by unfold pos; omega) (by unfold pos; omega) (by unfold pos; omega), one_mul]

theorem view_bfStage1 (hB : Rep B B') (tw : ℕ → ℝ × ℝ) (x : ℕ → ℝ) (k0 n : ℕ) :
    (bfStage1 B tw (8 * n) (x, k0)).2 = k0 + 2 * n ∧
    ∀ p < 2 * 1 * (2 * n), view (bfStage1 B tw (8 * n) (x, k0)).1 p = stg B' (fun i => toC (tw (k0 + i))) 1 (view x) p := by
  have hc := foldl_counter (fun (x : ℕ → ℝ) J k =>
    bf B (bf B x (8 * J) (8 * J + 4) (8 * J + 1) (8 * J + 5) (tw k)) (8 * J + 2) (8 * J + 6) (8 * J + 3) (8 * J + 7)
      (tw (k + 1))) 2 n k0 x
  unfold bfStage1
  rw [show (8 * n + 7) / 8 = n by omega]
  erw [hc]
  refine ⟨rfl, fun p hp => ?_⟩
  rw [← run_stg B' _ 1 (2 * n) (by norm_num) _ p hp, run, show 2 * n * 1 = n * 2 by ring, foldl_range_mul]
  refine congrFun (foldl_hom view _ _ n x fun x J hJ => ?_) p
  simp only [show List.range 2 = [0, 1] from rfl, List.foldl_cons, List.foldl_nil, Nat.div_one, Nat.mod_one]
  rw [view_bf hB _ (2 * 1 * (J * 2 + 1) + 0) (2 * 1 * (J * 2 + 1) + 0 + 1) (by omega) _ (by unfold pos; omega)
      (by unfold pos; omega) (by unfold pos; omega) (by unfold pos; omega),
    view_bf hB _ (2 * 1 * (J * 2 + 0) + 0) (2 * 1 * (J * 2 + 0) + 0 + 1) (by omega) _ (by unfold pos; omega)
      (by unfold pos; omega) (by unfold pos; omega) (by unfold pos; omega),
    show k0 + (J * 2 + 0) = k0 + 2 * J by omega, show k0 + (J * 2 + 1) = k0 + 2 * J + 1 by omega]

/-- The first stage of the forward and the last of the inverse transform are a single row. -/
theorem view_bfRow0 (hB : Rep B B') (x : ℕ → ℝ) (h : ℕ) (hh : h % 4 = 0) (h0 : 0 < h) (w : ℝ × ℝ) (p : ℕ) (hp : p < 2 * h) :
    view (bfRow B x 0 (2 * h) w) p = stg B' (fun _ => toC w) h (view x) p := by
  have h1 := (view_bfStage hB (fun _ => w) x 0 1 h hh h0).2 p (by omega)
  rw [← h1]
  simp [bfStage]

end Tfhe.Fft
