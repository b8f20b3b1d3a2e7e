import Verif.Model.Glwe
import Verif.Spec.Lwe
import Mathlib.Tactic.Ring

/-! # Loops that compute phases -/
namespace Tfhe
variable {R : Type} [CommRing R]

theorem foldl_add_eq {n : ℕ} (f : Fin n → R) (b : R) :
    Fin.foldl n (fun r i => r + f i) b = b + ∑ i, f i := by
  induction n generalizing b with
  | zero => simp
  | succ n ih => rw [Fin.foldl_succ, ih, Fin.sum_univ_succ, add_assoc]

theorem foldl_sub_eq {n : ℕ} (f : Fin n → R) (b : R) :
    Fin.foldl n (fun r i => r - f i) b = b - ∑ i, f i := by
  have := foldl_add_eq (fun i => -f i) b
  simp only [Finset.sum_neg_distrib, ← sub_eq_add_neg] at this
  exact this

theorem dot_eq {n : ℕ} (v0 v1 : Fin n → R) : dot v0 v1 = ∑ i, v0 i * v1 i := by
  unfold dot; rw [foldl_add_eq, zero_add]

theorem phase_cons {n : ℕ} (s a : Fin n → R) (b : R) :
    phase s (Fin.cons b a) = b + ∑ i, a i * s i := by
  simp [phase]

theorem decryptLWEPhase_eq {n : ℕ} (s : Fin n → R) (c : Fin (n + 1) → R) :
    decryptLWEPhase s c = phase s c := by
  unfold decryptLWEPhase phase; rw [dot_eq]

theorem phase_encryptLWEBody {n : ℕ} (s mask : Fin n → R) (noise body : R) :
    phase s (encryptLWEBody s mask noise body) = body + noise := by
  unfold encryptLWEBody
  simp only
  rw [phase_cons, dot_eq]; ring

theorem phase_encryptGLWEBody {k : ℕ} (s mask err : Fin k → R) (noise body : R) :
    phase s (encryptGLWEBody s mask err noise body) = body + noise - ∑ i, err i := by
  unfold encryptGLWEBody
  simp only
  rw [phase_cons, foldl_sub_eq, Finset.sum_add_distrib]; ring

theorem decryptGLWEPhase_eq {k : ℕ} (s err : Fin k → R) (c : Fin (k + 1) → R) :
    decryptGLWEPhase s err c = phase s c + ∑ i, err i := by
  unfold decryptGLWEPhase phase
  rw [foldl_add_eq, Finset.sum_add_distrib]; ring

theorem phase_map {S : Type} [CommRing S] {k : ℕ} (σ : R →+* S) (s : Fin k → R) (c : Fin (k + 1) → R) :
    phase (fun i => σ (s i)) (fun i => σ (c i)) = σ (phase s c) := by
  simp [phase, map_sum]

end Tfhe
