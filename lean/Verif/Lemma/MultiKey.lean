import Verif.Model.MultiKey
import Verif.Props.C28

/-!
# Decryptors of the package `mktfhe`
-/
namespace Tfhe.Mk
open Finset

/-- The decryptor `d` of `P` parties holds exactly the keys `held`. -/
structure Holds {K : Type} (P : ℕ) (d : Decryptor K) (held : ℕ → Option K) : Prop where
  len : d.on.length = P
  on : ∀ i < P, d.on.getD i false = (held i).isSome
  sub : ∀ i < P, ∀ s, held i = some s → d.subs[i]? = some (some s)

section
variable {R : Type} [CommRing R]

/-- The key of the concatenated LWE ciphertext: unknown parties have key zero. -/
def jointLWE {n : ℕ} (held : ℕ → Option (Fin n → R)) (t : ℕ) : R :=
  match held (t / n) with
  | none => 0
  | some s => if h : t % n < n then s ⟨t % n, h⟩ else 0

/-- The key of a multi-key GLWE ciphertext. -/
def jointGLWE (held : ℕ → Option R) (i : ℕ) : R := (held i).getD 0

theorem jointLWE_block {n : ℕ} (held : ℕ → Option (Fin n → R)) (i : ℕ) (j : Fin n) :
    jointLWE held (i * n + j) = ((held i).getD 0) j := by
  have hn : 0 < n := by have := j.2; omega
  have h1 : (i * n + j) / n = i := by
    rw [mul_comm, Nat.mul_add_div hn, Nat.div_eq_of_lt j.2, add_zero]
  have h2 : (i * n + (j : ℕ)) % n = j := by
    rw [mul_comm, Nat.mul_add_mod, Nat.mod_eq_of_lt j.2]
  unfold jointLWE
  rw [h1]
  cases held i with
  | none => rfl
  | some s =>
    have h3 : (i * n + (j : ℕ)) % n < n := by rw [h2]; exact j.2
    simp only [h3, dif_pos, Option.getD_some]
    congr 1; exact Fin.ext h2

theorem sum_blocks (P n : ℕ) (f : ℕ → R) :
    ∑ t : Fin (P * n), f t = ∑ i ∈ range P, ∑ j : Fin n, f (i * n + j) := by
  rw [Fin.sum_univ_eq_sum_range (fun t => f t) (P * n)]
  induction P with
  | zero => simp
  | succ P ih =>
    rw [sum_range_succ, ← ih, Nat.succ_mul, Finset.sum_range_add, Fin.sum_univ_eq_sum_range (fun j => f (P * n + j)) n]

theorem foldlM_acc {d : ℕ → R → Option R} {x : ℕ → R} (P : ℕ) (pt : R)
    (h : ∀ i < P, ∀ pt, d i pt = some (pt + x i)) :
    (List.range P).foldlM (fun pt i => d i pt) pt = some (pt + ∑ i ∈ range P, x i) := by
  induction P with
  | zero => simp
  | succ P ih =>
    rw [List.range_succ, List.foldlM_append, ih fun i hi => h i (by omega)]
    simp [h P (by omega), sum_range_succ, add_assoc]

/-- Decryption computes the phase under the joint key. -/
theorem decryptLWEPhase_eq {P n : ℕ} {d : Decryptor (Fin n → R)} {held} (hd : Holds P d held) (ct : ℕ → R) :
    decryptLWEPhase d ct =
      some (phase (fun t : Fin (P * n) => jointLWE held t) (fun t : Fin (P * n + 1) => ct t)) := by
  unfold decryptLWEPhase
  rw [hd.len, foldlM_acc (x := fun i => ∑ j : Fin n, ct (1 + i * n + j) * ((held i).getD 0) j)]
  · congr 1
    unfold phase
    simp only [Fin.val_zero, Fin.val_succ]
    rw [sum_blocks P n fun t => ct (t + 1) * jointLWE held t]
    congr 1
    refine sum_congr rfl fun i _ => sum_congr rfl fun j _ => ?_
    rw [jointLWE_block]; congr 2; omega
  · intro i hi pt
    rw [hd.on i hi]
    cases hs : held i with
    | none => simp
    | some s => simp [hd.sub i hi s hs, dot_eq]

/-- Decryption of GLWE ciphertexts computes the phase under the joint key, up to the errors of the products. -/
theorem mkDecryptGLWEPhase_eq {P : ℕ} {d : Decryptor R} {held} (hd : Holds P d held) (err ct : ℕ → R) :
    Mk.decryptGLWEPhase d err ct =
      some (phase (fun i : Fin P => jointGLWE held i) (fun t : Fin (P + 1) => ct t) +
        ∑ i ∈ range P, if (held i).isSome then err i else 0) := by
  unfold Mk.decryptGLWEPhase
  rw [hd.len, foldlM_acc (x := fun i => ct (i + 1) * jointGLWE held i + if (held i).isSome then err i else 0)]
  · congr 1
    unfold phase
    simp only [Fin.val_zero, Fin.val_succ]
    rw [Fin.sum_univ_eq_sum_range (fun i => ct (i + 1) * jointGLWE held i) P, sum_add_distrib, add_assoc]
  · intro i hi pt
    rw [hd.on i hi]
    cases hs : held i with
    | none => simp [jointGLWE, hs]
    | some s =>
      simp only [Option.isSome_some, if_true, hd.sub i hi s hs, Option.join_some, Option.map_some, Option.some.injEq]
      rw [Tfhe.decryptGLWEPhase_eq]
      simp [phase, jointGLWE, hs, add_comm 1 i, add_assoc]
end

end Tfhe.Mk
