/-!
# Specification vocabulary for vectors
-/
namespace Tfhe

/-- `out` is `v` rotated by `l` to the right: element `i` moves to `(i + l) mod len`. -/
def IsRotation {α : Type} (v out : List α) (l : Int) : Prop :=
  out.length = v.length ∧
    ∀ i : Nat, i < v.length → out[(((i : Int) + l) % v.length).toNat]? = v[i]?

/-- Reversal of the lowest `n` bits of `k`. -/
def bitRev : Nat → Nat → Nat
  | 0, _ => 0
  | n + 1, k => (k % 2) * 2 ^ n + bitRev n (k / 2)

end Tfhe
